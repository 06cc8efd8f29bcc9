import Verif.Model.BlockPart
import Verif.Props.BlockPart
import Verif.Model.DAGQueue
import Verif.Proof.DAGQueue
import Verif.Proof.DAGQueue2
import Verif.Props.DAGQueue
import Verif.Model.Base
import Verif.Model.CSR
import Verif.Proof.QSort
import Verif.Proof.CSR
import Verif.Props.CSR
import Verif.Model.IntVec
import Verif.Props.IntVec
import Verif.Model.DenseMat
import Verif.Proof.DenseMat
import Verif.Props.DenseMat
import Verif.Model.Utils
import Verif.Props.Workload
import Verif.Props.Utils
import Verif.Model.Partition
import Verif.Spec.ClusterTree
import Verif.Proof.Bucket
import Verif.Proof.Partition
import Verif.Proof.TreeArray
import Verif.Proof.ClusterTree
import Verif.Proof.Desc
import Verif.Proof.PartTerm
import Verif.Props.Partition
import Verif.Model.AdmPairs
import Verif.Proof.AdmPairs
import Verif.Props.AdmPairs
import Verif.Model.Matvec
import Verif.Spec.H2Matrix
import Verif.Proof.Matvec
import Verif.Proof.Matvec2
import Verif.Proof.Matvec3
import Verif.Props.Matvec
import Verif.Model.MatvecJIT
import Verif.Proof.MatvecJIT
import Verif.Proof.MatvecJIT2
import Verif.Proof.MatvecJIT3
import Verif.Proof.MatvecJIT4
import Verif.Props.MatvecJIT
import Verif.Model.Metadata
import Verif.Proof.Metadata
import Verif.Props.Metadata
import Verif.Model.InadmLists
import Verif.Props.Build
import Verif.Props.Entries
import Verif.Model.Matmul
import Verif.Proof.Matmul
import Verif.Proof.Matmul2
import Verif.Proof.Matmul3
import Verif.Props.Matmul
import Verif.Model.QR
import Verif.Spec.ID
import Verif.Proof.QR
import Verif.Proof.QR2
import Verif.Proof.QR3
import Verif.Proof.QR4
import Verif.Proof.ID
import Verif.Proof.ID2
import Verif.Proof.ID3
import Verif.Props.ID
import Verif.Model.FileIO
import Verif.Spec.FileIO
import Verif.Proof.FileIO
import Verif.Proof.FileIO2
import Verif.Proof.FileIO3
import Verif.Proof.FileIO4
import Verif.Proof.FileIO5
import Verif.Spec.Stored
import Verif.Proof.FileIO6
import Verif.Proof.FileIO7
import Verif.Proof.FileIO8
import Verif.Props.FileIO
import Verif.Model.ULV
import Verif.Spec.ULV
import Verif.Spec.ULVBlocks
import Verif.Proof.ULV
import Verif.Proof.ULV2
import Verif.Proof.ULV3
import Verif.Proof.ULV4
import Verif.Proof.ULV5
import Verif.Proof.ULV6
import Verif.Proof.ULV7
import Verif.Proof.ULV8
import Verif.Proof.ULV9
import Verif.Proof.ULV10
import Verif.Props.ULV
import Verif.Proof.ULV11
import Verif.Proof.ULV12
import Verif.Proof.ULV13
import Verif.Proof.Lapack
import Verif.Props.ULV2
import Verif.Props.HSSBuild
import Verif.Model.BuildUJ
import Verif.Spec.BuildUJ
import Verif.Spec.Built
import Verif.Proof.Fuel
import Verif.Proof.BuildUJ
import Verif.Proof.BuildUJ2
import Verif.Proof.Skeleton
import Verif.Proof.Skeleton2
import Verif.Props.BuildUJ
import Verif.Props.BuildUJ2
import Verif.Props.BuildUJ3
import Verif.Model.MatvecPer
import Verif.Model.BuildPer
import Verif.Spec.Periodic
import Verif.Spec.BuiltPer
import Verif.Proof.MatvecPer
import Verif.Proof.MatvecPer2
import Verif.Proof.MatvecPer3
import Verif.Proof.PerPairs
import Verif.Proof.BuildPer
import Verif.Proof.BuildPer2
import Verif.Props.MatvecPer
import Verif.Props.BuildPer
import Verif.Props.BuildPer2
import Verif.Model.MatmulPer
import Verif.Proof.MatmulPer
import Verif.Props.MatmulPer
import Verif.Model.SPDHSS
import Verif.Spec.SPDHSS
import Verif.Proof.Lapack2
import Verif.Proof.SPD1
import Verif.Proof.SPD2
import Verif.Proof.SPD3
import Verif.Proof.SPD4
import Verif.Proof.SPD5
import Verif.Proof.SPD6
import Verif.Proof.SPD7
import Verif.Proof.SPD8
import Verif.Proof.SPD9
import Verif.Proof.SPD10
import Verif.Proof.SPD11
import Verif.Proof.SPD12
import Verif.Proof.SPD13
import Verif.Proof.SPD14
import Verif.Proof.SPD15
import Verif.Proof.SPD16
import Verif.Props.SPDHSS
import Verif.Props.SPDHSS2
import Verif.Model.SPDSample
import Verif.Spec.SPDSample
import Verif.Proof.SPDS1
import Verif.Proof.SPDS2
import Verif.Proof.SPDS3
import Verif.Proof.SPDS4
import Verif.Proof.SPDS5
import Verif.Proof.SPDS6
import Verif.Props.SPDSample
import Verif.Proof.SPD17
import Verif.Proof.SPD18
import Verif.Proof.SPD19
import Verif.Proof.SPD20
import Verif.Proof.Lapack3
import Verif.Props.SPDExact
import Verif.Props.SPDTol
import Verif.Model.AFN
import Verif.Spec.AFN
import Verif.Proof.AFN1
import Verif.Proof.AFN2
import Verif.Proof.AFN3
import Verif.Props.AFN
import Verif.Model.FSAI
import Verif.Spec.FSAI
import Verif.Proof.FSAI1
import Verif.Proof.FSAI2
import Verif.Proof.FSAI3
import Verif.Proof.FSAI4
import Verif.Props.FSAI
import Verif.Model.AFNPrecond
import Verif.Spec.AFNPrecond
import Verif.Proof.AFNP1
import Verif.Proof.AFNP2
import Verif.Props.AFNPrecond
import Verif.Proof.AFNP3
import Verif.Proof.AFNP4
import Verif.Props.Nystrom
import Verif.Model.PCG
import Verif.Spec.PCG
import Verif.Proof.PCG1
import Verif.Proof.PCG2
import Verif.Props.PCG
import Verif.Proof.Cells
import Verif.Props.Neighbours
import Verif.Model.ApproxKNN
import Verif.Spec.ApproxKNN
import Verif.Proof.KNN1
import Verif.Proof.KNN2
import Verif.Proof.KNN3
import Verif.Proof.KNN4
import Verif.Props.ApproxKNN
import Verif.Model.ProxyPoint
import Verif.Spec.ProxyPoint
import Verif.Proof.Proxy1
import Verif.Proof.Proxy2
import Verif.Proof.Proxy3
import Verif.Props.ProxyPoint
import Verif.Model.ProxyFile
import Verif.Spec.ProxyFile
import Verif.Proof.ProxyFile1
import Verif.Proof.ProxyFile2
import Verif.Props.ProxyFile
import Verif.Props.ProxyBox
import Verif.Model.RankEst
import Verif.Spec.RankEst
import Verif.Proof.RankEst1
import Verif.Proof.RankEst2
import Verif.Proof.RankEst3
import Verif.Props.RankEst
import Verif.Model.SamplePoint
import Verif.Spec.SamplePoint
import Verif.Proof.Sample1
import Verif.Proof.Sample2
import Verif.Proof.Sample3
import Verif.Proof.Sample4
import Verif.Proof.Sample5
import Verif.Proof.Sample6
import Verif.Proof.Sample7
import Verif.Proof.Sample8
import Verif.Props.SamplePoint
import Verif.Props.SamplePoint2
import Verif.Props.SampleUJ
import Verif.Props.SampleEx
import Verif.Spec.Kernels
import Verif.Model.Kernels
import Verif.Proof.Kernels1
import Verif.Proof.Kernels2
import Verif.Proof.Kernels3
import Verif.Proof.Kernels4
import Verif.Props.Kernels
import Verif.Props.TensorKernels
import Verif.Props.BuiltinBuild
import Verif.Spec.Ewald
import Verif.Model.Ewald
import Verif.Proof.Ewald1
import Verif.Proof.Ewald2
import Verif.Props.Ewald
import Verif.Model.Rebuild
import Verif.Props.Rebuild
import Verif.Spec.Lifecycle
import Verif.Model.Lifecycle
import Verif.Proof.Lifecycle1
import Verif.Proof.Lifecycle2
import Verif.Proof.Lifecycle3
import Verif.Proof.Lifecycle4
import Verif.Proof.Lifecycle5
import Verif.Proof.Lifecycle6
import Verif.Props.Lifecycle
import Verif.Model.Modes
import Verif.Props.Modes
import Verif.Model.BlockJacobi
import Verif.Proof.LeafOrder
import Verif.Proof.BlockJacobi
import Verif.Props.BlockJacobi
import Verif.Model.NysPrecond
import Verif.Props.NysPrecond
import Verif.Props.LRDPrecond
import Verif.Model.CSRPlus
import Verif.Proof.CSRPlus1
import Verif.Proof.CSRPlus2
import Verif.Proof.CSRPlus3
import Verif.Props.CSRPlus
import Verif.Model.FSAIKnn
import Verif.Proof.FSAIKnn
import Verif.Props.FSAIKnn
import Verif.Model.FSAIBlock
import Verif.Proof.FSAIBlock
import Verif.Proof.FSAIBlock2
import Verif.Props.FSAIBlock
import Verif.Props.FSAIPCG
import Verif.Props.PrecondPCG
import Verif.Model.DirectNbody
import Verif.Props.DirectNbody
