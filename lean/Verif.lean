import Verif.Basic
import Verif.Spec
import Verif.Tables
import Verif.Bits
import Verif.SpecLemmas
import Verif.BitsRW
import Verif.BitsCount
import Verif.BitsSel
import Verif.BitsScan
import Verif.BitsFib
import Verif.Props.Words
import Verif.IntVec
import Verif.IntVecLemmas
import Verif.IntVecOps
import Verif.IntVecIter
import Verif.IntVecIO
import Verif.UtilLemmas
import Verif.UtilScan
import Verif.Props.IntVectors
import Verif.Arr
import Verif.Props.ArrBridge
import Verif.Props.RankSelect
import Verif.Rank
import Verif.RankLemmas
import Verif.Select
import Verif.SelectBuild
import Verif.SelectFast
import Verif.SelectLemmas
import Verif.SelectMcl
import Verif.SpecPat
import Verif.Il
import Verif.IlLemmas
import Verif.Props.BitVectorIl
import Verif.Bv
import Verif.Props.BvBridge
import Verif.Props.SdVector
import Verif.Sd
import Verif.SdLemmas
import Verif.SdQuery
import Verif.BvInt
import Verif.Props.RrrVector
import Verif.Rrr
import Verif.RrrBlock
import Verif.RrrBuild
import Verif.RrrComb
import Verif.RrrVec
import Verif.Coder
import Verif.CoderComma
import Verif.CoderLemmas
import Verif.CoderSum
import Verif.CoderVec
import Verif.Props.Coders
import Verif.SpecCode
import Verif.Fib
import Verif.FibDec
import Verif.FibEnc
import Verif.FibVec
import Verif.Props.Fibonacci
import Verif.SpecFib
import Verif.Enc
import Verif.EncKinds
import Verif.EncLemmas
import Verif.FibSum
import Verif.Props.EncVectors
import Verif.InvPerm
import Verif.Nn
import Verif.NnLemmas
import Verif.NnNext
import Verif.NnOps
import Verif.Props.NnDict
import Verif.Props.Stacks
import Verif.Stack
import Verif.StackHist
import Verif.StackLemmas
import Verif.InvPermLemmas
import Verif.Props.InvPerm
import Verif.Props.WideInt
import Verif.Wide
import Verif.Wide256
import Verif.WideLemmas
import Verif.Dac
import Verif.DacLemmas
import Verif.Props.Rmq
import Verif.Rmq
import Verif.RmqLemmas
import Verif.DacDp
import Verif.DacDpLemmas
import Verif.Props.DacVector
import Verif.Props.WtInt
import Verif.WtInt
import Verif.WtIntCons
import Verif.WtIntLemmas
import Verif.WtIntMore
import Verif.WtIntRange
import Verif.WtList
import Verif.WtNode
import Verif.WtSort
import Verif.Props.WmInt
import Verif.Props.WtAlg
import Verif.WmInt
import Verif.WmIntCons
import Verif.WmIntLemmas
import Verif.WmIntRange
import Verif.WtAlg
import Verif.WtAlgList
import Verif.WtFixed
import Verif.WtNav
import Verif.WtOrder
import Verif.WtRange
import Verif.WtUnique
import Verif.Props.WtPc
import Verif.WtPc
import Verif.WtPcCode
import Verif.WtPcFill
import Verif.WtPcHuff
import Verif.WtPcNav
import Verif.WtPcOk
import Verif.WtPcOrder
import Verif.WtPcQuery
import Verif.WtPcShape
import Verif.WtPcSize
import Verif.WtPcTree
import Verif.IntVecBuf
import Verif.IntVecBufInv
import Verif.IntVecBufLemmas
import Verif.IntVecBufOps
import Verif.Props.IntVecBuf
import Verif.Louds
import Verif.LoudsLemmas
import Verif.LoudsNav
import Verif.Props.Louds
import Verif.Props.RamFs
import Verif.RamFs
import Verif.RamFsLemmas
import Verif.RamFsOps
import Verif.HugeAlloc
import Verif.HugeHist
import Verif.HugeLemmas
import Verif.HugeOps
import Verif.HugeRealloc
import Verif.HugeSpec
import Verif.Props.HugeAlloc
import Verif.Csa
import Verif.CsaAlpha
import Verif.CsaLemmas
import Verif.CsaNav
import Verif.CsaNew
import Verif.CsaSample
import Verif.Props.Csa
import Verif.SufArr
import Verif.Bp
import Verif.BpNear
import Verif.BpScan
import Verif.BpTab
import Verif.Lcp
import Verif.LcpLemmas
import Verif.Props.Lcp
import Verif.BpRmq
import Verif.BpSada
import Verif.Props.Bp
import Verif.BpSadaBuild
import Verif.BpSadaBwd
import Verif.BpSadaFwd
import Verif.BpSadaRmq
import Verif.Props.BpSada
import Verif.Rrr15
import Verif.Rrr15Build
import Verif.Rrr15Sum
import Verif.Rrr15Tab
import Verif.Rrr15Vec
import Verif.Props.RmqSct
import Verif.Props.Sct
import Verif.RmqSct
import Verif.RmqSctLemmas
import Verif.Sct
import Verif.SctCode
import Verif.SctMach
import Verif.CstSct3
import Verif.CstSct3Ids
import Verif.CstSct3Lemmas
import Verif.CstSct3Nav
import Verif.CstSct3Nodes
import Verif.CstSct3Ops
import Verif.Props.CstSct3
import Verif.SpecCst
import Verif.CstSct3Csa
import Verif.CstSct3CsaLemmas
import Verif.CstSct3CsaOps
import Verif.Props.CstSct3Text
import Verif.SpecSufTree
import Verif.SufTree
import Verif.CsaPsi
import Verif.CsaPsiLemmas
import Verif.CsaPsiNew
import Verif.Props.CsaPsi
import Verif.LcpRep
import Verif.LcpRepLemmas
import Verif.LcpTree
import Verif.LcpTree2
import Verif.Props.LcpRep
import Verif.Props.WtRlmn
import Verif.WtAp
import Verif.WtApLemmas
import Verif.WtApNew
import Verif.WtRlmn
import Verif.WtRlmnLemmas
import Verif.WtRlmnNew
import Verif.CstIter
import Verif.CstIterDfs
import Verif.CstIterLemmas
import Verif.CstIterOrd
import Verif.Props.CstIter
import Verif.K2
import Verif.K2Lemmas
import Verif.K2Matrix
import Verif.K2Query
import Verif.Nnd
import Verif.NndLemmas
import Verif.Props.Nnd
import Verif.K2Edges
import Verif.K2Sort
import Verif.Props.K2
import Verif.WtGmr
import Verif.Props.WtGmr
import Verif.WtGmrCell
import Verif.WtGmrFull
import Verif.WtGmrLemmas
import Verif.WtGmrNew
import Verif.WtGmrPerm
import Verif.WtGmrRs
import Verif.WtGmrSort
import Verif.Hyb
import Verif.HybBlock
import Verif.HybBuild
import Verif.HybDec
import Verif.HybEnc
import Verif.HybPut
import Verif.HybQuery
import Verif.Props.Hyb
import Verif.CstSada
import Verif.CstSadaFill
import Verif.CstSadaIds
import Verif.CstSadaOps
import Verif.CstSadaStack
import Verif.CstSadaText
import Verif.CstSadaTree
import Verif.Props.CstSada
import Verif.Props.CstSadaText
import Verif.Props.SdSel0
import Verif.SdSel0
import Verif.SdSel0Build
import Verif.SdSel0Lemmas
import Verif.Bidir
import Verif.BidirLemmas
import Verif.BidirNew
import Verif.BidirSpec
import Verif.FwdSearch
import Verif.FwdSearchLemmas
import Verif.Props.Bidir
import Verif.Props.FwdSearch
import Verif.Props.TreeSearch
import Verif.TreeSearch
import Verif.TreeSearchLemmas
import Verif.Fuzzy
import Verif.FuzzyLemmas
import Verif.Props.Fuzzy
import Verif.Serial
import Verif.SerialClasses
import Verif.SerialGood
import Verif.SerialLemmas
import Verif.SerialMcl
import Verif.SerialMore
import Verif.Props.Serial
import Verif.Props.SerialAnswers
import Verif.Props.SerialTrees
import Verif.SerialSelect
import Verif.Cache
import Verif.CharQueue
import Verif.LcpBwt
import Verif.Props.Cache
import Verif.Props.CharQueue
import Verif.Props.LcpBwt
import Verif.Props.LcpBwtShort
import Verif.Props.SerialStored
import Verif.SerialBuilt
import Verif.Props.RaIter
import Verif.RaIter
import Verif.Props.Vbyte
import Verif.Vbyte
import Verif.K2TreapGeo
import Verif.Props.K2TreapGeo
import Verif.Isa
import Verif.Props.Isa
