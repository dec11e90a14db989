import Verif.Props.C01
import Verif.Props.C23
import Verif.Props.C07
import Verif.Props.C25
import Verif.Props.C08
import Verif.Props.C02FoR
import Verif.Props.C26
import Verif.Props.C18
import Verif.Model.ByteBool
import Verif.Model.Roaring
import Verif.Props.C19
import Verif.Model.BoolPred
import Verif.Model.VarBin
import Verif.Lemmas.VarBin
import Verif.Props.C22
import Verif.Props.C22Filter
import Verif.Props.C02Sparse
import Verif.Props.C15
import Verif.Props.C16
import Verif.Model.DateTimeParts
import Verif.Props.C17
import Verif.Props.C14
import Verif.Props.C14Bytes
import Verif.Model.Patch
import Verif.Model.ALP
import Verif.Lemmas.Patch
import Verif.Spec.Float
import Verif.Props.C11
import Verif.Spec.Compare
import Verif.Props.C24
import Verif.Props.C12
import Verif.Model.ALPRD
import Verif.Props.C13
import Verif.Model.BitPack
import Verif.Lemmas.BitPack
import Verif.Props.C09
import Verif.Props.C10
import Verif.Props.C10More
import Verif.Props.C02BitPack
import Verif.Props.C21
import Verif.Model.VarBinView
import Verif.Props.C21View
import Verif.Model.FSST
import Verif.Props.C20
import Verif.Model.Expr
import Verif.Spec.Expr
import Verif.Lemmas.Expr
import Verif.Model.Pruning
import Verif.Props.C27
import Verif.Props.C28
import Verif.Model.DType
import Verif.Model.Scalar
import Verif.Spec.Scalar
import Verif.Lemmas.Scalar
import Verif.Props.C29
import Verif.Props.C30
import Verif.Model.Ipc
import Verif.Spec.Ipc
import Verif.Lemmas.Ipc
import Verif.Lemmas.IpcCodec
import Verif.Props.C31
import Verif.Props.C32
import Verif.Props.C33
import Verif.Props.C46
import Verif.Model.Layout
import Verif.Spec.Layout
import Verif.Lemmas.Layout
import Verif.Lemmas.LayoutStream
import Verif.Lemmas.LayoutBuild
import Verif.Props.C44
import Verif.Lemmas.LayoutRead
import Verif.Props.C35
import Verif.Props.C36
import Verif.Props.C37
import Verif.Model.LayoutFile
import Verif.Lemmas.LayoutFile
import Verif.Lemmas.LayoutFinish
import Verif.Props.C34
import Verif.Props.C34RoundTrip
import Verif.Props.C34Example
import Verif.Model.TakeRows
import Verif.Lemmas.TakeRows
import Verif.Props.C38
import Verif.Model.Kernels
import Verif.Props.C39
import Verif.Model.Sampling
import Verif.Props.C40
import Verif.Model.Buffer
import Verif.Props.C45
import Verif.Model.Tree
import Verif.Spec.Tree
import Verif.Lemmas.Tree
import Verif.Lemmas.TreeScalar
import Verif.Lemmas.TreeSlice
import Verif.Props.C03
import Verif.Props.C04
import Verif.Model.TreeBulk
import Verif.Spec.TreeBulk
import Verif.Lemmas.TreeBulk
import Verif.Lemmas.TreeShadow
import Verif.Lemmas.TreeCanon
import Verif.Lemmas.TreeTake
import Verif.Lemmas.TreeFilter
import Verif.Props.C03Canon
import Verif.Props.C05
import Verif.Props.C06
import Verif.Model.TreeStruct
import Verif.Spec.TreeStruct
import Verif.Lemmas.TreeStruct
import Verif.Props.C42
import Verif.Model.Compress
import Verif.Spec.Compress
import Verif.Lemmas.Compress
import Verif.Lemmas.CompressDriver
import Verif.Props.C41
import Verif.Model.DataFusion
import Verif.Spec.Sql
import Verif.Lemmas.DataFusion
import Verif.Props.C43
import Verif.Model.Leaves
import Verif.Props.C03Leaves
import Verif.Model.Temporal
import Verif.Props.C47
import Verif.Model.ArrowType
import Verif.Spec.Arrow
import Verif.Props.C48
import Verif.Model.ArrowArray
import Verif.Spec.ArrowArray
import Verif.Props.C49
import Verif.Model.Iter
import Verif.Props.C50
import Verif.Props.Restated
import Verif.Model.Flex
import Verif.Props.C85
import Verif.Model.StoredStats
import Verif.Props.C86
import Verif.Model.EncStats
import Verif.Props.C87
import Verif.Model.StatsCache
import Verif.Props.C88
import Verif.Model.ScalarConv
import Verif.Props.C89
import Verif.Lemmas.Leaves
import Verif.Model.LeafCompress
import Verif.Props.C90
import Verif.Props.C91
import Verif.Props.C93
import Verif.Props.C93Example
import Verif.Model.FileScan
import Verif.Spec.FileScan
import Verif.Lemmas.FileScan
import Verif.Lemmas.FileScanSql
import Verif.Props.C94
import Verif.Props.C94Example
import Verif.Props.C95
import Verif.Props.C95Zero
import Verif.Props.C95Example
import Verif.Props.C96
import Verif.Props.C97
import Verif.Props.C98
import Verif.Props.C99
import Verif.Props.C100
import Verif.Props.C101
import Verif.Props.C102
import Verif.Props.C102Example
import Verif.Props.C102Leaves
import Verif.Props.C102LeavesExample
import Verif.Props.C103
import Verif.Props.C104
import Verif.Props.C105
import Verif.Props.C106
import Verif.Props.C107
import Verif.Props.C108
import Verif.Props.C108Leaves
import Verif.Props.C109
import Verif.Props.C109Example
import Verif.Props.C110
import Verif.Props.C110Example
import Verif.Props.C111
import Verif.Props.C111Example
import Verif.Props.C112
import Verif.Props.C113
import Verif.Props.C114
import Verif.Props.C115
import Verif.Props.C116
import Verif.Props.C117
import Verif.Props.C118
