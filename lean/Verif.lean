import Verif.Props.Mle
import Verif.Props.Sumcheck
import Verif.Props.Distributed
import Verif.Props.Layers
import Verif.Props.SamePoly
import Verif.Props.Quant
import Verif.Props.Tables
import Verif.Props.LogUp
import Verif.Props.LogUpProof
import Verif.Props.Tensor
import Verif.Props.Fft
import Verif.Props.Conv
import Verif.Props.LookupLayers
import Verif.Props.ConvVerify
import Verif.Props.Merkle
import Verif.Props.Encoding
import Verif.Props.Basefold
import Verif.Props.Commit
import Verif.Props.Graph
import Verif.Props.GraphRun
import Verif.Props.Requant
import Verif.Props.Store
import Verif.Props.Worker
import Verif.Props.Transcript
import Verif.Props.Elementwise
import Verif.Props.Embeddings
import Verif.Props.Positional
import Verif.Props.Logits
import Verif.Props.ConcatMatMul
import Verif.Props.Qkv
import Verif.Props.Attention
import Verif.Props.Softmax
import Verif.Props.SoftmaxSum
import Verif.Props.SoftmaxProof
import Verif.Props.SoftmaxStep
import Verif.Props.Broadcast
import Verif.Props.Mha
import Verif.Props.MhaProof
import Verif.Model.LayerNorm
import Verif.Spec.LayerNorm
import Verif.Lemmas.LayerNorm
import Verif.Props.LayerNorm
import Verif.Model.LayerNormProof
import Verif.Spec.LayerNormProof
import Verif.Lemmas.LayerNormProof
import Verif.Props.LayerNormProof
import Verif.Props.LayerNormStep
import Verif.Props.SoftmaxInference
import Verif.Props.MhaInference
import Verif.Spec.LayerPad
import Verif.Spec.BasefoldBatch
import Verif.Model.LayerPad
import Verif.Model.BasefoldBatch
import Verif.Lemmas.LayerPad
import Verif.Lemmas.ClassicSumcheck
import Verif.Lemmas.BasefoldBatch
import Verif.Lemmas.BatchQueries
import Verif.Lemmas.BatchMerge
import Verif.Lemmas.BatchOpen
import Verif.Lemmas.BatchSound
import Verif.Props.LayerPad
import Verif.Props.BasefoldBatch
import Verif.Spec.WholeProof
import Verif.Model.WholeProof
import Verif.Lemmas.WholeProof
import Verif.Props.WholeProof
import Verif.Spec.Generation
import Verif.Model.Generation
import Verif.Props.Generation
import Verif.Model.Metadata
import Verif.Lemmas.Metadata
import Verif.Lemmas.CollectPairs
import Verif.Props.Metadata
import Verif.Spec.Calibration
import Verif.Model.Calibration
import Verif.Props.Calibration
import Verif.Model.QuantLayers
import Verif.Props.QuantLayers
import Verif.Model.QuantMatMul
import Verif.Props.QuantMatMul
import Verif.Model.LogUpProver
import Verif.Lemmas.LogUpProver
import Verif.Props.LogUpProver
import Verif.Model.LookupProvers
import Verif.Lemmas.LookupProvers
import Verif.Lemmas.PoolPolys
import Verif.Props.LookupProvers
import Verif.Lemmas.WholeProofIf
import Verif.Model.Network
import Verif.Spec.Network
import Verif.Spec.Passes
import Verif.Lemmas.NetTables
import Verif.Lemmas.NetLayers
import Verif.Lemmas.Network
import Verif.Lemmas.NetConv
import Verif.Lemmas.NetWhole
import Verif.Spec.Forgery
import Verif.Props.Network
import Verif.Props.NetworkConv
import Verif.Props.Forgery
import Verif.Props.AffineNet
import Verif.Props.WholeChecks
import Verif.Model.ConvProver
import Verif.Lemmas.ConvPhi
import Verif.Lemmas.ConvDelegate
import Verif.Lemmas.ConvFft
import Verif.Lemmas.ConvData
import Verif.Lemmas.ConvSteps
import Verif.Lemmas.ConvWeights
import Verif.Lemmas.ConvEnds
import Verif.Lemmas.ConvAssemble
import Verif.Props.ConvProver
import Verif.Spec.PadModel
import Verif.Model.PadModel
import Verif.Lemmas.PadModel
import Verif.Props.PadModel
import Verif.Props.PadModelExample
import Verif.Spec.SimpleBatch
import Verif.Model.SimpleBatch
import Verif.Lemmas.SimpleBatch
import Verif.Props.SimpleBatch
import Verif.Model.Onnx
import Verif.Spec.Onnx
import Verif.Lemmas.Onnx
import Verif.Lemmas.OnnxLoad
import Verif.Lemmas.OnnxGraph
import Verif.Props.Onnx
import Verif.Props.OnnxExamples
import Verif.Spec.Shapes
import Verif.Model.Shapes
import Verif.Props.Shapes
