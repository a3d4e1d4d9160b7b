import Verif.Model.Grammar
import Verif.Model.Print
import Verif.Spec.Text
import Verif.Lemmas.Stream
import Verif.Lemmas.Position
import Verif.Lemmas.ListEval
import Verif.Lemmas.Sim
import Verif.Lemmas.Safe
import Verif.Spec.Tree
import Verif.Lemmas.Conform
import Verif.Spec.Peg
import Verif.Lemmas.Ref
import Verif.Spec.Erase
import Verif.Spec.Outcome
import Verif.Lemmas.Fuel
import Verif.Lemmas.Outcome
import Verif.Props.Streams
import Verif.Props.Eval
import Verif.Props.Rules
import Verif.Props.Terminals
import Verif.Spec.Terminate
import Verif.Props.Terminate
import Verif.Spec.Ast
import Verif.Props.Ast
import Verif.Props.Merge
import Verif.Props.Redundant
import Verif.Props.Levels
import Verif.Spec.Document
import Verif.Props.Embed
import Verif.Lemmas.Document
import Verif.Props.Yield
import Verif.Props.Document
import Verif.Spec.Definition
import Verif.Lemmas.Parse
import Verif.Spec.Cause
import Verif.Lemmas.Blame
import Verif.Lemmas.Truth
import Verif.Model.DefMessage
import Verif.Spec.Calls
import Verif.Props.Definitions
import Verif.Spec.Error
import Verif.Props.Errors
import Verif.Spec.Syntax
import Verif.Lemmas.Syntax
import Verif.Lemmas.Notation
import Verif.Lemmas.RuleEq
import Verif.Props.Syntax
import Verif.Props.Grammars
import Verif.Spec.Printing
import Verif.Lemmas.Printing
import Verif.Props.Printing
import Verif.Model.Conc
import Verif.Spec.Concurrency
import Verif.Lemmas.Conc
import Verif.Props.Concurrency
import Verif.Props.Faults
import Verif.Spec.Places
import Verif.Lemmas.Places
import Verif.Props.Places
import Verif.Props.EmbedPlaces
import Verif.Lemmas.Twin
import Verif.Props.Blame
import Verif.Props.Kinds
import Verif.Spec.Paths
import Verif.Props.Counts
import Verif.Props.Texts
import Verif.Model.Show
import Verif.Spec.Drawing
import Verif.Props.Drawing
import Verif.Spec.Local
import Verif.Lemmas.Local
import Verif.Props.Local
import Verif.Spec.Rename
import Verif.Lemmas.Rename
import Verif.Props.Rename
import Verif.Model.Message
import Verif.Spec.Message
import Verif.Props.Messages
import Verif.Props.MessageCases
import Verif.Spec.ShownParts
import Verif.Props.Descriptions
import Verif.Props.Truth
import Verif.Spec.Predictive
import Verif.Lemmas.Predictive
import Verif.Lemmas.PredictiveRun
import Verif.Lemmas.Certificate
import Verif.Props.Predictive
import Verif.Spec.Language
import Verif.Lemmas.Language
import Verif.Props.Language
import Verif.Model.Serialize
import Verif.Spec.Serialize
import Verif.Props.Reachable
import Verif.Props.Serialize
import Verif.Model.Report
import Verif.Spec.Report
import Verif.Props.Report
import Verif.Model.Bytes
import Verif.Spec.Bytes
import Verif.Props.Bytes
import Verif.Spec.Shown
import Verif.Props.Reasons
import Verif.Model.Command
import Verif.Spec.Command
import Verif.Props.Command
import Verif.Spec.Needed
import Verif.Lemmas.Needed
import Verif.Props.Needed
import Verif.Spec.Written
import Verif.Props.Written
import Verif.Spec.Parens
import Verif.Lemmas.Parens
import Verif.Props.Parens
import Verif.Spec.Factor
import Verif.Lemmas.Factor
import Verif.Props.Factor
import Verif.Spec.Build
import Verif.Props.Build
import Verif.Spec.Marks
import Verif.Lemmas.Marks
import Verif.Lemmas.NodeInd
import Verif.Props.MarksTree
import Verif.Props.Marks
import Verif.Spec.Escape
import Verif.Lemmas.Escape
import Verif.Props.Escape
import Verif.Spec.Spacing
import Verif.Lemmas.Spacing
import Verif.Lemmas.Unplaced
import Verif.Props.Spacing
import Verif.Model.Heap
import Verif.Model.HeapEval
import Verif.Spec.Memory
import Verif.Lemmas.Heap
import Verif.Lemmas.HeapStream
import Verif.Lemmas.HeapRun
import Verif.Lemmas.HeapLeaf
import Verif.Lemmas.HeapSeq
import Verif.Lemmas.HeapChoice
import Verif.Lemmas.HeapBlock
import Verif.Lemmas.HeapGrammar
import Verif.Lemmas.HeapTree
import Verif.Props.Heap
import Verif.Model.Access
import Verif.Lemmas.Access
import Verif.Model.Parallel
import Verif.Lemmas.Parallel
import Verif.Props.Parallel
import Verif.Model.Work
import Verif.Spec.Work
import Verif.Lemmas.Work
import Verif.Lemmas.WorkFuel
import Verif.Lemmas.Still
import Verif.Lemmas.Linear
import Verif.Props.Work
import Verif.Props.WorkBound
import Verif.Lemmas.DocWork
import Verif.Lemmas.DocLinear
import Verif.Props.WorkText
import Verif.Lemmas.RunFuel
import Verif.Lemmas.TreeSize
import Verif.Lemmas.DocSize
import Verif.Props.TreeSize
import Verif.Props.TreeGrowth
import Verif.Spec.Bare
import Verif.Lemmas.Unspaced
import Verif.Lemmas.Alike
import Verif.Props.Unspaced
import Verif.Model.AnyStream
import Verif.Spec.AnyStream
import Verif.Lemmas.AnyStream
import Verif.Lemmas.AnySim
import Verif.Lemmas.AnyDocument
import Verif.Lemmas.AnySafe
import Verif.Lemmas.AnyExact
import Verif.Props.AnyStream
import Verif.Props.EntryPoints
import Verif.Props.WorkBoundText
import Verif.Spec.Joined
import Verif.Lemmas.Joined
import Verif.Lemmas.Grow
import Verif.Props.Joined
import Verif.Props.ThreeRoots
import Verif.Model.NodeHeap
import Verif.Model.NodeEval
import Verif.Spec.NodeHeap
import Verif.Spec.NodeEval
import Verif.Lemmas.NodeHeap
import Verif.Lemmas.NodeEval
import Verif.Props.InPlace
import Verif.Props.Objects
import Verif.Spec.Shuffle
import Verif.Lemmas.Shuffle
import Verif.Props.Shuffle
import Verif.Spec.Added
import Verif.Lemmas.Added
import Verif.Lemmas.Grown
import Verif.Props.Added
import Verif.Props.EofMarks
import Verif.Props.Bounds
import Verif.Props.BoundsCases
