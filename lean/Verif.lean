import Verif.Arnoldi
import Verif.ArnoldiEigs
import Verif.ArnoldiExamples
import Verif.ArnoldiInv
import Verif.ArnoldiKernels
import Verif.ArnoldiProps
import Verif.ArnoldiRestart
import Verif.ArnoldiRitz
import Verif.AxisCopy
import Verif.AxisNames
import Verif.AxisNames1
import Verif.AxisNames10
import Verif.AxisNames2
import Verif.AxisNames3
import Verif.AxisNames4
import Verif.AxisNames5
import Verif.AxisNames6
import Verif.AxisNames7
import Verif.AxisNames8
import Verif.AxisNames9
import Verif.AxisProps
import Verif.AxisProps1
import Verif.AxisProps2
import Verif.Backends
import Verif.Broadcast
import Verif.BsBlocks
import Verif.BsCache
import Verif.BsCharge
import Verif.BsContig
import Verif.BsCount
import Verif.BsDiag
import Verif.BsDot
import Verif.BsEigh
import Verif.BsEigs
import Verif.BsEye
import Verif.BsFactor
import Verif.BsGmres
import Verif.BsGroup
import Verif.BsIndex
import Verif.BsInit
import Verif.BsInv
import Verif.BsLanczos
import Verif.BsLegs
import Verif.BsPart
import Verif.BsReduce
import Verif.BsRep
import Verif.BsTensor
import Verif.BsTensordot
import Verif.BsTrace
import Verif.BsTrans
import Verif.BsTrunc
import Verif.BsUnique
import Verif.Bucket
import Verif.Bucket2
import Verif.Bucket3
import Verif.Bucket4
import Verif.Context
import Verif.CopyNode
import Verif.Decomp
import Verif.DecompProps
import Verif.Dmrg
import Verif.DmrgBond
import Verif.DmrgCases
import Verif.DmrgChain
import Verif.DmrgEnv
import Verif.DmrgFermi
import Verif.DmrgLocal
import Verif.DmrgLoop
import Verif.DmrgOne
import Verif.DmrgPair
import Verif.DmrgProps
import Verif.DmrgRun
import Verif.DmrgSand
import Verif.DmrgStep
import Verif.DmrgSvd
import Verif.DmrgSweep
import Verif.DmrgTwo
import Verif.DmrgTwoProps
import Verif.Einsum
import Verif.ExFft
import Verif.ExMera
import Verif.ExMeraGrad
import Verif.ExMeraLinear
import Verif.ExMeraOptimize
import Verif.ExMeraProps
import Verif.ExMeraShift
import Verif.ExMeraState
import Verif.ExMeraUpdate
import Verif.ExNet
import Verif.ExSat
import Verif.ExSatCount
import Verif.ExTrotter
import Verif.ExTrotterProps
import Verif.ExTrotterUnitary
import Verif.ExWave
import Verif.ExWaveCircuit
import Verif.ExWaveProps
import Verif.FullSolve
import Verif.Gmres
import Verif.GmresInv
import Verif.GmresLoop
import Verif.GmresNeg
import Verif.GmresProps
import Verif.GraphAbsorb
import Verif.GraphBetween
import Verif.GraphConnect
import Verif.GraphContract
import Verif.GraphContractors
import Verif.GraphCopy
import Verif.GraphCopyNode
import Verif.GraphCopyNode2
import Verif.GraphCopyNode3
import Verif.GraphCopyNode4
import Verif.GraphCopyNode5
import Verif.GraphDensity
import Verif.GraphFlatten
import Verif.GraphFlatten1
import Verif.GraphFlatten2
import Verif.GraphFlattenAll
import Verif.GraphFrame
import Verif.GraphHistory
import Verif.GraphLoops
import Verif.GraphMerge
import Verif.GraphOps
import Verif.GraphPath
import Verif.GraphProps1
import Verif.GraphProps2
import Verif.GraphProps3
import Verif.GraphProps4
import Verif.GraphProps5
import Verif.GraphProps6
import Verif.GraphReach
import Verif.GraphRedirect
import Verif.GraphRemove
import Verif.GraphReorder
import Verif.GraphSlice
import Verif.GraphSpec
import Verif.GraphSplit
import Verif.GraphSplit1
import Verif.GraphSplit2
import Verif.GraphSplitFull
import Verif.GraphSplitFull2
import Verif.GraphSplitNode
import Verif.GraphSplitNode1
import Verif.GraphSplitNode2
import Verif.GraphTail
import Verif.GraphTrace
import Verif.GraphViz
import Verif.GraphWF
import Verif.Greedy
import Verif.Group
import Verif.Hdf5
import Verif.Heap
import Verif.Idx
import Verif.InfAlg
import Verif.InfCases
import Verif.InfCell
import Verif.InfDrop
import Verif.InfEigs
import Verif.InfFinish
import Verif.InfMps
import Verif.InfProps
import Verif.InfRoots
import Verif.InfTwice
import Verif.JaxEigsh
import Verif.JaxEigshConv
import Verif.JaxEigshExamples
import Verif.JaxEigshInv
import Verif.JaxEigshProps
import Verif.JaxEigshThms
import Verif.JaxLanczos
import Verif.JaxLanczosExamples
import Verif.JaxLanczosInv
import Verif.JaxLanczosThms
import Verif.Json
import Verif.Keras
import Verif.KerasChain
import Verif.KerasConv
import Verif.KerasEntangler
import Verif.KerasMpo
import Verif.KerasProps
import Verif.Kron
import Verif.KrylovFront
import Verif.Label
import Verif.Lanczos
import Verif.LanczosAbs
import Verif.LanczosProps
import Verif.LanczosProps2
import Verif.Mpo
import Verif.MpoFermi
import Verif.MpoProps
import Verif.MpoRoll
import Verif.Mps
import Verif.MpsCanon
import Verif.MpsCheck
import Verif.MpsEnv
import Verif.MpsEnvs
import Verif.MpsGate
import Verif.MpsGateProps
import Verif.MpsKernel
import Verif.MpsMeasure
import Verif.MpsMeasureProps
import Verif.MpsNcon
import Verif.MpsOverlap
import Verif.MpsPair
import Verif.MpsProps
import Verif.MpsState
import Verif.Ncon
import Verif.NconApi
import Verif.NconCanon
import Verif.NconCheck
import Verif.NconCost
import Verif.NconLoop
import Verif.NconMain
import Verif.NconOps
import Verif.NconProof
import Verif.NconProps
import Verif.NconRepeat
import Verif.NconSolver
import Verif.NconSpec
import Verif.Nd
import Verif.Net
import Verif.NetGroup
import Verif.NpKrylov
import Verif.OrdToNcon
import Verif.QuAlgebra
import Verif.QuAlgebra2
import Verif.QuAlgebra3
import Verif.QuAlgebra4
import Verif.QuAlgebra5
import Verif.QuAlgebra6
import Verif.QuContract
import Verif.QuElim
import Verif.QuElimLoop
import Verif.QuProps
import Verif.SwitchBackend
import Verif.TensorCls
import Verif.TensorClsProd
import Verif.TensorClsShape
import Verif.TensorDiag
import Verif.TensorDiagFlat
import Verif.TensorDiagMain
import Verif.TensorDiagProps
import Verif.TfDot
import Verif.Topology
import Verif.TopologyProps
