import Verif.Core
import Verif.CS
import Verif.Spec
import Verif.Props.MatVec
import Verif.Props.TriSolve
import Verif.Props.Conv
import Verif.BinIO
import Verif.Props.BinIO
import Verif.Props.Struct
import Verif.Props.Valid
import Verif.Wrap
import Verif.Props.Wrap
import Verif.Props.Coo
import Verif.Props.Assemble
import Verif.Props.Perm
import Verif.Props.SparseVec
import Verif.Props.Prec
import Verif.Props.Nsp
import Verif.Props.Mrhs
import Verif.Props.Refine
import Verif.Props.Factor
import Verif.Props.Schur
import Verif.Props.DropOff
import Verif.Props.Crout
import Verif.Props.Tight
import Verif.Props.Options
import Verif.Props.LibHifir
import Verif.Props.Pre
import Verif.Rcm
import Verif.RcmLemmas
import Verif.Props.Rcm
import Verif.ArrayRC
import Verif.ArrayRCLemmas
import Verif.ArrayRCStep
import Verif.ArrayRCValues
import Verif.Props.ArrayRC
import Verif.Aug
import Verif.AugLemmas
import Verif.AugLists
import Verif.AugPush
import Verif.Props.Aug
import Verif.SyEig
import Verif.SyEigLemmas
import Verif.SyEigDense
import Verif.Props.SyEig
import Verif.Props.SyEigEnd
import Verif.Props.SyEigDef
import Verif.Props.SyEigDefEx
import Verif.Props.DenseFail
import Verif.MM
import Verif.MMSpec
import Verif.MMLemmas
import Verif.MMRead
import Verif.MMMat
import Verif.MMWrite
import Verif.MMTrip
import Verif.MMReject
import Verif.Props.MM
import Verif.Props.MMTrip
import Verif.Extract
import Verif.Props.Extract
import Verif.Level
import Verif.LevelAlg
import Verif.LevelLemmas
import Verif.LevelRun
import Verif.FactorRun
import Verif.Props.Level
import Verif.Props.LevelEx
import Verif.Qrcp
import Verif.QrcpLemmas
import Verif.QrcpRun
import Verif.QrcpMrhs
import Verif.QrcpFac
import Verif.Props.Qrcp
import Verif.Props.QrcpEnd
import Verif.Props.QrcpEx
import Verif.PCrout
import Verif.PCroutSide
import Verif.PCroutVec
import Verif.PCroutPos
import Verif.PCroutLoop
import Verif.PCroutPiv
import Verif.PCroutStep
import Verif.PCroutFin
import Verif.CroutRes
import Verif.Props.PCrout
import Verif.Props.PLevel
import Verif.Props.LevelKernels
import Verif.Props.Rook
import Verif.Symm
import Verif.SymmSim
import Verif.SymmLevel
import Verif.Has
import Verif.SymmRun
import Verif.SymSpec
import Verif.Props.Symm
import Verif.Props.SymmLevel
import Verif.Props.SymmEx
import Verif.Props.DenseCrit
import Verif.Props.RefSize
import Verif.Props.Growth
import Verif.Mc64
import Verif.Mc64Heap
import Verif.Mc64Inv
import Verif.Mc64Lay
import Verif.Mc64Dij
import Verif.Mc64Begin
import Verif.Mc64Search
import Verif.Mc64Path
import Verif.Mc64Run
import Verif.Mc64Kernel
import Verif.Mc64Compute
import Verif.Mc64Drive
import Verif.Props.Mc64
import Verif.Amd
import Verif.AmdBase
import Verif.AmdTree
import Verif.AmdPost
import Verif.AmdFinish
import Verif.AmdGc
import Verif.AmdLists
import Verif.AmdGraph
import Verif.AmdPivot
import Verif.AmdBuild
import Verif.AmdBuild2
import Verif.AmdBuild3
import Verif.AmdScan
import Verif.AmdCmp
import Verif.AmdBucket
import Verif.AmdPass
import Verif.AmdPass2
import Verif.AmdMerge
import Verif.AmdRestore
import Verif.AmdStep
import Verif.AmdStep2
import Verif.AmdStep3
import Verif.AmdStep4
import Verif.AmdInit
import Verif.AmdWalk
import Verif.AmdOne
import Verif.AmdOrder
import Verif.Props.Amd
import Verif.Props.LupEnd
import Verif.Props.GmresEnd
import Verif.Props.DropMT
import Verif.Props.Export
import Verif.Props.ExportFac
import Verif.PSymm
import Verif.PSymmVec
import Verif.PSymmLoop
import Verif.PSymmStep
import Verif.PSymmDrop
import Verif.PSymmLevel
import Verif.Props.PartSymm
import Verif.Props.PartSymmEx
import Verif.Props.SymmLead
import Verif.Props.SymmLeadEx
import Verif.Sizes
import Verif.SizesRun
import Verif.FillLevel
import Verif.SizesFac
import Verif.Props.Fill
import Verif.Props.FillEx
import Verif.Props.Converge
import Verif.Props.ConvergeEnd
import Verif.Props.IterScale
import Verif.Props.IterScaleEx
import Verif.Props.SymmScale
import Verif.Ascii
import Verif.Props.Ascii
import Verif.DenseMat
import Verif.Props.DenseMat
import Verif.OptRepr
import Verif.Props.OptRepr
import Verif.PrecFixed
import Verif.Props.PrecFixed
import Verif.Props.RefineFixed
import Verif.PrecProdFixed
import Verif.Props.PrecProd
import Verif.Props.FilterFixed
import Verif.Props.FactorFixed
import Verif.Props.FactorFixedEx
import Verif.Props.SymmFixed
import Verif.Props.SymmFixedEx
import Verif.Props.SemiDef
import Verif.Props.SemiDefEx
