import Verif.Lemmas.Acc
import Verif.Lemmas.Conc
import Verif.Lemmas.ConcTerm
import Verif.Lemmas.Fro
import Verif.Lemmas.Impl
import Verif.Lemmas.ImplBlock
import Verif.Lemmas.ImplMat
import Verif.Lemmas.MatArith
import Verif.Lemmas.Pinv
import Verif.Lemmas.Region
import Verif.Lemmas.Vec
import Verif.Lemmas.VecArith
import Verif.Model.Arr
import Verif.Model.Band
import Verif.Model.BandBB
import Verif.Model.BandCH
import Verif.Model.BandLU
import Verif.Model.BandMM
import Verif.Model.BandMV
import Verif.Model.BandQR
import Verif.Model.BandSum
import Verif.Model.BandTri
import Verif.Model.Bareiss
import Verif.Model.Bidiag
import Verif.Model.CH
import Verif.Model.CHDiv
import Verif.Model.Conc
import Verif.Model.Diag
import Verif.Model.DiagTri
import Verif.Model.Div
import Verif.Model.EigQR
import Verif.Model.Fallback
import Verif.Model.Fun
import Verif.Model.Givens
import Verif.Model.IO
import Verif.Model.InPlace
import Verif.Model.LDL
import Verif.Model.LDLDiv
import Verif.Model.LU
import Verif.Model.LUATA
import Verif.Model.LUDiv
import Verif.Model.ListInit
import Verif.Model.Loop
import Verif.Model.Mat
import Verif.Model.MatArith
import Verif.Model.MatMat
import Verif.Model.MatMatBlock
import Verif.Model.MatMatKern
import Verif.Model.MatVec
import Verif.Model.Mem
import Verif.Model.MixSym
import Verif.Model.Omp
import Verif.Model.Perm
import Verif.Model.PermHeap
import Verif.Model.QR
import Verif.Model.QRDiv
import Verif.Model.QRP
import Verif.Model.QRPDiv
import Verif.Model.QRUpd
import Verif.Model.Rank1
import Verif.Model.Rank2
import Verif.Model.Refs
import Verif.Model.SVD
import Verif.Model.SVDec
import Verif.Model.SVQR
import Verif.Model.SmallDiv
import Verif.Model.SmallProd
import Verif.Model.SmallSum
import Verif.Model.Sort
import Verif.Model.SymBandBB
import Verif.Model.SymBandMul
import Verif.Model.SymBandSum
import Verif.Model.SymMM
import Verif.Model.SymMMAlias
import Verif.Model.SymMat
import Verif.Model.SymMul
import Verif.Model.SymRK
import Verif.Model.SymSV
import Verif.Model.SymSq
import Verif.Model.SymSum
import Verif.Model.Tri
import Verif.Model.TriDivAlias
import Verif.Model.TriDivT
import Verif.Model.TriMM
import Verif.Model.TriMat
import Verif.Model.TriMul
import Verif.Model.TriProd
import Verif.Model.TriRK
import Verif.Model.TriSum
import Verif.Model.TriUL
import Verif.Model.TriUU
import Verif.Model.Tridiag
import Verif.Model.Vec
import Verif.Model.VecArith
import Verif.Props.Arr
import Verif.Props.Band
import Verif.Props.BandBB
import Verif.Props.BandCH
import Verif.Props.BandCHDivider
import Verif.Props.BandCHInverse
import Verif.Props.BandCHMain
import Verif.Props.BandFull
import Verif.Props.BandLDL
import Verif.Props.BandLU
import Verif.Props.BandMM
import Verif.Props.BandMV
import Verif.Props.BandOps
import Verif.Props.BandQR
import Verif.Props.BandQRATA
import Verif.Props.BandQRDivider
import Verif.Props.BandQRMain
import Verif.Props.BandQRSolve
import Verif.Props.BandSum
import Verif.Props.BandSum2
import Verif.Props.BandSumEx
import Verif.Props.BandTri
import Verif.Props.Bareiss
import Verif.Props.Bidiag
import Verif.Props.BidiagRun
import Verif.Props.BidiagStep
import Verif.Props.CH
import Verif.Props.CHDiv
import Verif.Props.Diag
import Verif.Props.DiagTri
import Verif.Props.Div
import Verif.Props.EigEx
import Verif.Props.EigMain
import Verif.Props.EigQR
import Verif.Props.Fallback
import Verif.Props.Givens
import Verif.Props.HermRoot
import Verif.Props.HermSV
import Verif.Props.HermSVD
import Verif.Props.Householder
import Verif.Props.IO
import Verif.Props.InPlace
import Verif.Props.LDL
import Verif.Props.LDLDet
import Verif.Props.LDLDiv
import Verif.Props.LDLGood
import Verif.Props.LDLInv
import Verif.Props.LDLInvD
import Verif.Props.LDLInvM
import Verif.Props.LDLInverse
import Verif.Props.LDLNB
import Verif.Props.LDLNB2
import Verif.Props.LDLPanel
import Verif.Props.LDLPiv
import Verif.Props.LU
import Verif.Props.LUATA
import Verif.Props.LUDiv
import Verif.Props.ListInit
import Verif.Props.LowerTri
import Verif.Props.MatArith
import Verif.Props.MatArithEx
import Verif.Props.MatMat
import Verif.Props.MatMatBlock
import Verif.Props.MatMatBlockKern
import Verif.Props.MatMatEx
import Verif.Props.MatMatKern
import Verif.Props.MatMatLoops
import Verif.Props.MatMatParts
import Verif.Props.MatMatRun
import Verif.Props.MatMatSmall
import Verif.Props.MatOps
import Verif.Props.MatReduce
import Verif.Props.MatTwo
import Verif.Props.MatVec
import Verif.Props.MatViews
import Verif.Props.MixSym
import Verif.Props.Omp
import Verif.Props.OmpCall
import Verif.Props.OmpEx
import Verif.Props.PermOwn
import Verif.Props.PermVal
import Verif.Props.Polar
import Verif.Props.QR
import Verif.Props.QRDiv
import Verif.Props.QRDown
import Verif.Props.QROps
import Verif.Props.QRP
import Verif.Props.QRPDiv
import Verif.Props.QRPDivMain
import Verif.Props.QRPGraded
import Verif.Props.QRPLoose
import Verif.Props.QRPLooseBad
import Verif.Props.QRPMain
import Verif.Props.QRPPerm
import Verif.Props.QRPSolve
import Verif.Props.QRPStrict
import Verif.Props.QRQ
import Verif.Props.QRSolve
import Verif.Props.QRUpd
import Verif.Props.Rank1
import Verif.Props.Rank2
import Verif.Props.Refs
import Verif.Props.SV22
import Verif.Props.SVChop
import Verif.Props.SVD
import Verif.Props.SVDec
import Verif.Props.SVEx
import Verif.Props.SVLoop
import Verif.Props.SVMain
import Verif.Props.SVRot
import Verif.Props.SVSweep
import Verif.Props.SVZero
import Verif.Props.SmallDet
import Verif.Props.SmallDivMain
import Verif.Props.SmallElem
import Verif.Props.SmallFlat
import Verif.Props.SmallLU
import Verif.Props.SmallProd
import Verif.Props.SmallProdLem
import Verif.Props.SmallQR
import Verif.Props.SmallRect
import Verif.Props.SmallSq
import Verif.Props.SmallSum
import Verif.Props.SymBandBB
import Verif.Props.SymBandMul
import Verif.Props.SymBandSum
import Verif.Props.SymConv
import Verif.Props.SymMM
import Verif.Props.SymMMAlias
import Verif.Props.SymMat
import Verif.Props.SymMul
import Verif.Props.SymOps
import Verif.Props.SymRK
import Verif.Props.SymReduce
import Verif.Props.SymSV
import Verif.Props.SymSVEx
import Verif.Props.SymSq
import Verif.Props.SymSum
import Verif.Props.SymSum2
import Verif.Props.SymSum3
import Verif.Props.SymSumEx
import Verif.Props.SymSwap
import Verif.Props.SymTwo
import Verif.Props.SymViews
import Verif.Props.Tri
import Verif.Props.TriDivAlias
import Verif.Props.TriDivT
import Verif.Props.TriDivTL
import Verif.Props.TriDivTM
import Verif.Props.TriDivTU
import Verif.Props.TriLU
import Verif.Props.TriMM
import Verif.Props.TriMat
import Verif.Props.TriMul
import Verif.Props.TriOps
import Verif.Props.TriProd
import Verif.Props.TriRK
import Verif.Props.TriSum
import Verif.Props.TriSum2
import Verif.Props.TriSumEx
import Verif.Props.TriUL
import Verif.Props.TriUU
import Verif.Props.TriUUL
import Verif.Props.TriUUT
import Verif.Props.Tridiag
import Verif.Props.TridiagRun
import Verif.Props.TridiagStep
import Verif.Props.VecArith
import Verif.Props.VecArithEx
import Verif.Props.VecDot
import Verif.Props.VecElem
import Verif.Props.VecOps
import Verif.Props.VecPermute
import Verif.Props.VecReduce
import Verif.Props.VecSort
import Verif.Props.VecTwo
import Verif.Props.VecViews
import Verif.Spec.Band
import Verif.Spec.BandBand
import Verif.Spec.BandLin
import Verif.Spec.BandMul
import Verif.Spec.BiDiag
import Verif.Spec.DivTri
import Verif.Spec.EVal
import Verif.Spec.Fro
import Verif.Spec.Herm
import Verif.Spec.House
import Verif.Spec.LDL
import Verif.Spec.Lin
import Verif.Spec.Mat
import Verif.Spec.MulAdd
import Verif.Spec.MulTri
import Verif.Spec.Pinv
import Verif.Spec.SVal
import Verif.Spec.SmallMat
import Verif.Spec.SymMat
import Verif.Spec.TriMat
import Verif.Spec.Vec
