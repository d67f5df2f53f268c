import Verif.Cpp
import Verif.Model.Utility
import Verif.Model.Int
import Verif.Spec.Int
import Verif.Proof.Loops
import Verif.Proof.IntBasic
import Verif.Proof.IntAdd
import Verif.Proof.IntAddSub
import Verif.Proof.IntMul
import Verif.Proof.IntDiv
import Verif.Proof.IntText
import Verif.Proof.IntNum
import Verif.Proof.IntRoot
import Verif.Proof.IntMisc
import Verif.Props.IntBasic
import Verif.Props.IntMore
import Verif.Props.IntExtra
import Verif.Model.IntMethods
import Verif.Props.IntStream
import Verif.Model.List
import Verif.Model.ListProgram
import Verif.Spec.Seq
import Verif.Proof.List
import Verif.Proof.ListLoops
import Verif.Proof.ListMore
import Verif.Props.List
import Verif.Model.Deque
import Verif.Spec.Deque
import Verif.Props.Deque
import Verif.Model.Str
import Verif.Spec.Str
import Verif.Proof.StrFind
import Verif.Props.StrSearch
import Verif.Proof.StrSeq
import Verif.Props.StrSeq
import Verif.Proof.StrNum
import Verif.Props.StrNum
import Verif.Model.Tree
import Verif.Model.Set
import Verif.Model.Dict
import Verif.Spec.Set
import Verif.Spec.Dict
import Verif.Proof.Tree
import Verif.Props.Set
import Verif.Props.Dict
import Verif.Props.Fraction
import Verif.Props.FractionStream
import Verif.Props.Complex
import Verif.Props.ComplexStream
import Verif.Props.TuplePrint
import Verif.Props.NoEffect
import Verif.Model.Compare
import Verif.Model.Objects
import Verif.Model.Iter
import Verif.Spec.Compare
import Verif.Spec.ReadLoop
import Verif.Proof.Meth
import Verif.Proof.ReadLoop
import Verif.Props.Compare
import Verif.Props.Objects
import Verif.Props.ReadLoop
import Verif.Props.Iter
import Verif.Props.Hash
import Verif.Proof.DoubleMore
import Verif.Spec.Decimal
import Verif.Proof.Decimal
import Verif.Props.StrDecimal
import Verif.Proof.ComplexRounding
import Verif.Props.ComplexRounding
import Verif.Model.Construct
import Verif.Props.Construct
import Verif.Props.IntExact
import Verif.Model.DoubleText
import Verif.Spec.DoubleText
import Verif.Proof.DoubleText
import Verif.Props.DoubleText
import Verif.Model.FracProgram
import Verif.Spec.FracProgram
import Verif.Props.FracProgram
import Verif.Props.FracDouble
import Verif.Model.Format
import Verif.Spec.Format
import Verif.Props.Format
import Verif.Props.Random
import Verif.Props.HashValue
import Verif.Proof.IntSteps
import Verif.Props.Rounds
import Verif.Model.Reference
import Verif.Props.Reference
import Verif.Model.Throwing
import Verif.Model.ListRef
import Verif.Model.DequeRef
import Verif.Props.Throwing
import Verif.Props.ListRef
import Verif.Props.ListRoom
import Verif.Props.DequeRef
import Verif.Spec.Nested
import Verif.Props.Nested
import Verif.Props.IntPow
import Verif.Model.SetIter
import Verif.Props.SetIter
import Verif.Model.ListLoop
import Verif.Props.ListLoop
import Verif.Model.DictIter
import Verif.Props.DictIter
import Verif.Model.ReverseIter
import Verif.Props.ReverseIter
import Verif.Model.DequeLoop
import Verif.Props.DequeLoop
import Verif.Props.LoopEnd
import Verif.Props.FracEqual
import Verif.Model.ReverseLoop
import Verif.Props.ReverseLoop
import Verif.Model.SignedZero
import Verif.Props.SignedZero
import Verif.Proof.IntStrict
import Verif.Props.IntStrict
import Verif.Props.IntStrictProgram
import Verif.Props.ListExact
import Verif.Props.AnySize
import Verif.Props.DequeAny
import Verif.Props.ListAny
import Verif.Props.DictViews
import Verif.Props.ComplexEqual
import Verif.Props.StrAny
import Verif.Props.AnyEq
import Verif.Spec.Weak
import Verif.Props.WeakKeys
import Verif.Model.OutOfMemory
import Verif.Spec.OutOfMemory
import Verif.Proof.OutOfMemory
import Verif.Props.OutOfMemory
import Verif.Model.IntAny
import Verif.Spec.IntAny
import Verif.Proof.IntAny
import Verif.Proof.IntAnyAdd
import Verif.Proof.IntAnyMul
import Verif.Proof.IntAnyDiv
import Verif.Proof.IntAnyNum
import Verif.Proof.IntAnyRoot
import Verif.Proof.IntAnyPow
import Verif.Proof.IntAnyText
import Verif.Props.IntAny
import Verif.Model.IntCost
import Verif.Spec.IntCost
import Verif.Proof.IntCost
import Verif.Proof.IntCostCount
import Verif.Proof.IntCostInc
import Verif.Proof.IntCostSum
import Verif.Proof.IntCostDiv
import Verif.Props.IntCost
import Verif.Spec.FracExact
import Verif.Props.FracExact
import Verif.Props.FracKeys
import Verif.Spec.Python
import Verif.Spec.PythonStr
import Verif.Spec.PythonSeq
import Verif.Props.PythonNum
import Verif.Props.PythonStr
import Verif.Props.PythonSeq
import Verif.Model.Convert
import Verif.Props.Convert
import Verif.Spec.Printed
import Verif.Props.Printed
import Verif.Model.ReadBack
import Verif.Props.ReadBack
import Verif.Spec.HashTable
import Verif.Model.HashTable
import Verif.Proof.HashTable
import Verif.Props.HashTable
import Verif.Model.CxExpr
import Verif.Spec.CxExpr
import Verif.Props.CxExpr
import Verif.Model.Locale
import Verif.Props.Locale
import Verif.Model.LocaleIn
import Verif.Props.LocaleIn
import Verif.Props.LocaleInt
import Verif.Model.Chain
import Verif.Props.Chain
import Verif.Props.ChainList
import Verif.Model.ListCost
import Verif.Props.ListCost
import Verif.Model.ChainInt
import Verif.Model.ChainSet
import Verif.Model.ChainStr
import Verif.Props.ChainInt
import Verif.Props.ChainSet
import Verif.Props.ChainStr
import Verif.Model.Moves
import Verif.Props.Moves
import Verif.Model.StableSort
import Verif.Proof.StableSort
import Verif.Proof.StableSortRun
import Verif.Proof.StableSortSafe
import Verif.Props.StableSort
import Verif.Model.StrCost
import Verif.Proof.StrCost
import Verif.Proof.StrCostNum
import Verif.Props.StrCost
import Verif.Props.StrCostNum
import Verif.Model.SortState
import Verif.Proof.SortState
import Verif.Props.SortState
import Verif.Model.SortMemory
import Verif.Proof.SortMemory
import Verif.Proof.SortMemoryRun
import Verif.Proof.SortMemorySafe
import Verif.Props.SortMemory
import Verif.Model.RbTree
import Verif.Model.RbSet
import Verif.Proof.RbTree
import Verif.Proof.RbTreePos
import Verif.Proof.RbTreeFind
import Verif.Proof.RbTreeAny
import Verif.Proof.RbSet
import Verif.Proof.RbDict
import Verif.Props.RbTree
import Verif.Model.RbThrow
import Verif.Proof.RbThrow
import Verif.Props.RbThrow
import Verif.Model.DequeBlock
import Verif.Proof.DequeBlock
import Verif.Proof.DequeBlockRun
import Verif.Props.DequeBlock
import Verif.Model.DequeBlockExtend
import Verif.Proof.DequeBlockExtend
import Verif.Proof.DequeBlockExtendFront
import Verif.Props.DequeBlockExtend
import Verif.Tests.Basic
import Verif.Tests.Int
import Verif.Tests.Str
import Verif.Tests.Containers
import Verif.Tests.Demo
import Verif.Tests.Numbers
