import Verif.Basic
import Verif.BinTree.Model
import Verif.BinTree.Spec
import Verif.BinTree.Lemmas
import Verif.BinTree.Run
import Verif.BinTree.Theorems
import Verif.Token.Model
import Verif.Token.Grammar
import Verif.Token.Lemmas
import Verif.Token.Skip
import Verif.Token.Theorems
import Verif.Lit.Model
import Verif.Lit.Spec
import Verif.Lit.Lemmas
import Verif.Lit.Theorems
import Verif.FastVal.Model
import Verif.FastVal.Theorems
import Verif.FastVal.Math
import Verif.FastVal.Func
import Verif.Match.Model
import Verif.Match.Value
import Verif.Match.Refine
import Verif.Match.Marks
import Verif.Match.Sound
import Verif.Match.Reset
import Verif.Match.Total
import Verif.Match.Layout
import Verif.Match.Theorems
import Verif.Expr.Model
import Verif.Expr.Theorems
import Verif.Transform.Model
import Verif.Transform.Tree
import Verif.Transform.Items
import Verif.Transform.Compile
import Verif.Transform.Walk
import Verif.Transform.Sem
import Verif.Transform.Whole
import Verif.Transform.Theorems
import Verif.Match.Unref
import Verif.Match.Order
import Verif.Transform.Unref
import Verif.Transform.Order
import Verif.Transform.Keys
import Verif.Json.Model
import Verif.Json.Spec
import Verif.Json.Theorems
import Verif.Composer.Model
import Verif.Composer.Safe
import Verif.Composer.Spec
import Verif.Composer.Theorems
import Verif.Slow.Model
import Verif.Slow.Theorems
import Verif.Conc.Model
import Verif.Conc.Theorems
import Verif.FastVal.Kinds
import Verif.Transform.Values
import Verif.Transform.Each
import Verif.Filter.Model
import Verif.Filter.Syntax
import Verif.Filter.Output
import Verif.Filter.Theorems
import Verif.Simple.Model
import Verif.Simple.Fuel
import Verif.Simple.Field
import Verif.Simple.Read
import Verif.Simple.Steps
import Verif.Simple.Chain
import Verif.Simple.Num
import Verif.Simple.Call
import Verif.Simple.Values
import Verif.Simple.Theorems
import Verif.Simple.Meaning
import Verif.Simple.Findings
import Verif.Transform.Slots
import Verif.Transform.Multi
import Verif.Transform.MultiSem
import Verif.Transform.MultiWhole
import Verif.Simple.Weight
import Verif.Simple.Ends
import Verif.Simple.Acyclic
import Verif.Simple.Hang
import Verif.Slow.Scope
import Verif.Filter.Pcre
import Verif.Match.Bytes
import Verif.Match.Damage
import Verif.Transform.Damage
import Verif.Simple.Groups
import Verif.Simple.GroupTheorems
import Verif.Simple.Balance
import Verif.Date.Regex
import Verif.Date.Model
import Verif.Date.Theorems
import Verif.Date.Claims
import Verif.Filter.Multi
import Verif.Transform.MultiUnref
import Verif.Slow.Multi
import Verif.Simple.Glue
import Verif.Simple.GlueSim
import Verif.Simple.GlueTheorems
import Verif.FastVal.Round
import Verif.FastVal.Binary
import Verif.FastVal.BinaryExt
import Verif.FastVal.Half
import Verif.FastVal.Functions
import Verif.Quote.Model
import Verif.Quote.Spec
import Verif.Quote.Lemmas
import Verif.Quote.Decode
import Verif.Quote.Claims
import Verif.FastVal.Conv
import Verif.Transform.Still
import Verif.Transform.AfterLoop
import Verif.Transform.Store
import Verif.Transform.Rooted
import Verif.Transform.Nodes
import Verif.Transform.RootedSem
import Verif.Transform.RootedWhole
import Verif.Transform.Element
import Verif.Transform.Outer
import Verif.Transform.ElementSem
import Verif.Transform.ElementWhole
import Verif.Simple.Names
import Verif.Filter.Chain
import Verif.Transform.Repeated
import Verif.Simple.Whole
import Verif.Filter.Grammar
import Verif.Transform.Constants
import Verif.Transform.Reach
import Verif.Transform.ReachSem
import Verif.Transform.ReachSlots
import Verif.Transform.ReachMulti
import Verif.Transform.ReachPairs
import Verif.Filter.Anywhere
import Verif.Transform.ConstantsAll
import Verif.Simple.Anywhere
import Verif.Transform.ReachLoops
import Verif.Transform.ReachStill
import Verif.Transform.ReachRooted
import Verif.Transform.ReachLoopMembers
import Verif.Cases.Values
import Verif.Cases.Matching
import Verif.Transform.ReachElemOps
import Verif.Transform.ReachElemSem
import Verif.Transform.Given
import Verif.Transform.Carry
import Verif.Transform.ElementAny
import Verif.Transform.ElementMembers
import Verif.Transform.ReachUnref
import Verif.Transform.Compiles
import Verif.Filter.Compiles
import Verif.Match.Halts
import Verif.Transform.Halts
import Verif.Filter.Halts
import Verif.Simple.Compiles
import Verif.Slow.Elements
import Verif.Transform.Likeness
import Verif.Transform.LikeElements
import Verif.Transform.ExistsFunction
import Verif.Transform.PrintModel
import Verif.Transform.Print
import Verif.Match.FirstToken
import Verif.Transform.Trailing
import Verif.Transform.LikeRooted
import Verif.Transform.ExprText
import Verif.Match.InSync
import Verif.Transform.InSync
import Verif.Transform.Merged
import Verif.Transform.MergedAny
import Verif.Transform.PrintInj
import Verif.Transform.PrintAll
import Verif.Transform.PrintState
import Verif.Transform.Negate
import Verif.Transform.NegateRun
import Verif.Transform.Rename
import Verif.Transform.Push
import Verif.Transform.PushRun
import Verif.Transform.Regroup
import Verif.Filter.Pieces
