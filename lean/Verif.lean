import Verif.Cpp
import Verif.Props.Base64
import Verif.Props.Url
import Verif.Props.Kmp
import Verif.Props.ContRef
import Verif.Props.ContLoop
import Verif.Props.MapLoop
import Verif.Props.MultiLoop
import Verif.Props.JsonMessage
import Verif.Props.JsonWork
import Verif.Props.TrieLoop
import Verif.Props.JsonDumpWork
import Verif.Props.TrieWork
import Verif.Props.TrieWorld
import Verif.Props.BigNumWork
import Verif.Props.BSTReuse
import Verif.Props.RandomUse
import Verif.Props.TreeForest
import Verif.Props.JsonDepth
import Verif.Props.StatsTypes
import Verif.Props.FloatText
import Verif.Props.TextExact
import Verif.Props.EditWork
import Verif.Props.MatrixWork
import Verif.Props.Base64Decode
import Verif.Props.TextSizes
import Verif.Props.FloatVector
import Verif.Props.DoubleLarge
import Verif.Props.StreamOnly
import Verif.Props.ContVars
import Verif.Props.StringCast
import Verif.Props.EditDistance
import Verif.Props.MathFns
import Verif.Props.GcdTypes
import Verif.Props.FactTypes
import Verif.Props.PowTypes
import Verif.Props.AssocCmp
import Verif.Props.FractionProg
import Verif.Props.KmpUse
import Verif.Props.Pieces
import Verif.Props.JsonStore
import Verif.Props.MatrixFrac
import Verif.Props.JsonRfcDump
import Verif.Props.TreeCost
import Verif.Props.BigNumLoop
import Verif.Props.EditMore
import Verif.Props.KeyOrder
import Verif.Props.FractionLoop
import Verif.Props.MatrixRank
import Verif.Props.KmpReads
import Verif.Props.BigSizes
import Verif.Props.Mersenne
import Verif.Props.DoubleText
import Verif.Props.RandomUpper
import Verif.Props.Fraction
import Verif.Props.FractionExact
import Verif.Props.FractionText
import Verif.Props.Stats
import Verif.Props.StatsDouble
import Verif.Props.StatsVar
import Verif.Props.Threads
import Verif.Props.BigNum
import Verif.Props.BigNumIndex
import Verif.Props.BigNumNeg
import Verif.Props.BigNumStale
import Verif.Props.BigNumSigned
import Verif.Props.BigNumSignedProg
import Verif.Props.BigNumProg
import Verif.Props.Matrix
import Verif.Props.MatrixText
import Verif.Props.MatrixNew
import Verif.Props.MatrixTextDbl
import Verif.Props.MatrixDouble
import Verif.Props.RandomLaw
import Verif.Props.MatrixHeap
import Verif.Props.SegmentTree
import Verif.Props.SegmentTreeClip
import Verif.Props.SegmentTreeExact
import Verif.Props.SegmentTreeCost
import Verif.Props.SegmentTreeInt
import Verif.Props.SegmentTreeNode
import Verif.Props.SegmentTreeDbl
import Verif.Props.Tree
import Verif.Props.TreeGet
import Verif.Props.TreeMove
import Verif.Props.BST
import Verif.Props.BSTUse
import Verif.Props.BSTGhost
import Verif.Props.BSTCost
import Verif.Props.Trie
import Verif.Props.TrieAbsent
import Verif.Props.TrieTour
import Verif.Props.TrieHistory
import Verif.Props.TrieMemory
import Verif.Props.Json
import Verif.Props.JsonStack
import Verif.Props.JsonHex
import Verif.Props.JsonLoose
import Verif.Props.JsonApi
import Verif.Props.JsonApiExact
import Verif.Props.Sequence
import Verif.Props.SeqProg
import Verif.Props.Assoc
import Verif.Props.Steps
import Verif.Props.Stream
import Verif.Props.StreamBad
import Verif.Props.Algo
import Verif.Props.Random
import Verif.Props.RandomDiscrete
import Verif.Props.RandomCont
import Verif.Props.RandomCount
import Verif.Props.RandomDbl
import Verif.Props.Geometry
import Verif.Props.PointProg
import Verif.Props.Circle
import Verif.Props.GeometryAcc
import Verif.Props.GeometryInt
import Verif.Props.GeometryRange
import Verif.Props.GeometryEq
import Verif.Props.Graph
import Verif.Props.GraphCopy
import Verif.Props.RandomNormal
import Verif.Props.RandomObj
import Verif.Props.RandomParams
import Verif.Props.JsonHeap
import Verif.Props.JsonConv
import Verif.Props.JsonLayout
import Verif.Props.JsonLayoutTab
import Verif.Props.JsonDouble
import Verif.Props.JsonGuard
import Verif.Props.JsonCut
import Verif.Props.JsonNumber
import Verif.Props.BigNumFull
import Verif.Props.JsonInside
import Verif.Props.JsonDoubleExact
import Verif.Props.FractionSwap
import Verif.Props.FractionActual
