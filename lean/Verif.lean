import Verif.Go
import Verif.Buf
import Verif.BufSpec
import Verif.BufLemmas
import Verif.BufOps
import Verif.BufOps2
import Verif.Codec
import Verif.BufRead
import Verif.Types
import Verif.Misc
import Verif.Log
import Verif.Chan
import Verif.Info
import Verif.InfoAll
import Verif.Peg
import Verif.PegLemmas
import Verif.SchemaSpec
import Verif.SchemaLemmas
import Verif.SchemaParse
import Verif.GenCmd
import Verif.Node
import Verif.Tree
import Verif.NodeEdit
import Verif.FbSpec
import Verif.NodeLemmas
import Verif.Cells
import Verif.TableInv
import Verif.TableSet
import Verif.ListEdit
import Verif.ListDirect
import Verif.Pieces
import Verif.ListTable
import Verif.ListSwap
import Verif.TabInline
import Verif.Props.Node
import Verif.Props.NodeEdit
import Verif.Props.List
import Verif.Props.ListTable
import Verif.Props.Info
import Verif.Props.InfoAll
import Verif.Props.Peg
import Verif.Props.Gen
import Verif.Props.Chan
import Verif.Props.Log
import Verif.Props.Buf
import Verif.Props.Types
import Verif.Props.Misc
import Verif.ListAdd
import Verif.Props.ListAdd
import Verif.Props.Buf2
import Verif.Props.Gen2
import Verif.Heap
import Verif.HeapLemmas
import Verif.HeapLayer
import Verif.HeapMerge
import Verif.HeapInPlace
import Verif.HeapFoot
import Verif.HeapWorld
import Verif.Props.Heap
import Verif.Stream
import Verif.StreamLemmas
import Verif.Props.Stream
import Verif.TableNest
import Verif.CellReads
import Verif.Props.TableNest
import Verif.ListRange
import Verif.Props.ListProg
import Verif.Props.ListDeep
import Verif.ListMixed
import Verif.ListMixedAdd
import Verif.Props.ListMixed
import Verif.Sort
import Verif.Props.Sort
import Verif.Props.Ends
import Verif.TreeCond
import Verif.Props.TreeCond
import Verif.Props.EqualDeep
import Verif.Props.EqualVal
import Verif.DirRange
import Verif.Props.ListSub
import Verif.Access
import Verif.Message
import Verif.Props.Message
import Verif.TypedSet
import Verif.Props.Access
import Verif.TabCells
import Verif.Props.Insert
import Verif.Props.NodeMore
import Verif.Props.GenAcc
import Verif.Registry
import Verif.Props.Registry
import Verif.Split
import Verif.SplitLemmas
import Verif.SplitAppend
import Verif.Props.Split
import Verif.Props.SplitDeep
import Verif.Props.Len
import Verif.Props.Struct
import Verif.Shift
import Verif.Props.Tree
import Verif.EditIn
import Verif.EditForest
import Verif.Props.EditIn
import Verif.Props.EditMore
import Verif.Props.Find
import Verif.Api
import Verif.Props.Api
import Verif.Deep
import Verif.Props.Deep
import Verif.Props.DeepLen
import Verif.Laid
import Verif.EditPath
import Verif.EditDeep
import Verif.EditMsg
import Verif.LaidWire
import Verif.Props.EditDeep
import Verif.Handles
import Verif.Props.Handles
import Verif.Props.Reuse
import Verif.PegTape
import Verif.PegTapeLemmas
import Verif.PegStale
import Verif.Props.BadSchema
import Verif.GenText
import Verif.GenRead
import Verif.Props.GenText
import Verif.GenRun
import Verif.GenMain
import Verif.Helper
import Verif.Props.GenRun
import Verif.Props.GenMain
import Verif.Props.Helper
import Verif.Props.TreeExtent
import Verif.Props.Enum
import Verif.Props.Guards
import Verif.StreamNode
import Verif.Props.StreamExact
import Verif.Props.StreamNode
import Verif.Props.StreamLayout
import Verif.Props.StreamValue
