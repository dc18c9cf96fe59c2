import Verif.Engine.Basic
import Verif.Engine.Model
import Verif.Engine.Spec
import Verif.Engine.Util
import Verif.Engine.Dirty
import Verif.Engine.Cost
import Verif.Engine.Inv
import Verif.Engine.RefLemmas
import Verif.Engine.State
import Verif.Engine.Ops
import Verif.Engine.Produce
import Verif.Engine.Force
import Verif.Engine.Clean
import Verif.Engine.Lockstep
import Verif.Engine.Main
import Verif.Engine.Run
import Verif.Engine.Editor
import Verif.Engine.SigMono
import Verif.Engine.Mono
import Verif.Props.Consistency
import Verif.Engine.General
import Verif.Engine.GeneralOps
import Verif.Trace.Model
import Verif.Props.Scoping
import Verif.Props.Dirtying
import Verif.Engine.Stay
import Verif.Engine.Space
import Verif.Engine.Earn
import Verif.Props.Edits
import Verif.Props.Forcing
import Verif.Props.Deps
import Verif.Props.LastRun
import Verif.Props.Graph
import Verif.Props.Deviations
import Verif.Props.Poison
import Verif.Names.Model
import Verif.Props.Names
import Verif.Engine.Manage
import Verif.Collections.Model
import Verif.Collections.Spec
import Verif.Props.Lists
import Verif.Props.Sorting
import Verif.Props.Trees
import Verif.Catalog.BitString
import Verif.Catalog.Trie
import Verif.Props.BitStrings
import Verif.Props.Tries
import Verif.Reflect.ParseVal
import Verif.Reflect.Debug
import Verif.Reflect.Lex
import Verif.Reflect.LexPrint
import Verif.Reflect.Parse
import Verif.Reflect.ParsePrint
import Verif.Props.Reflection
import Verif.Trace.Count
import Verif.Trace.Shape
import Verif.Props.TraceCount
import Verif.Props.Structural
import Verif.Engine.Wf
import Verif.Props.Checker
import Verif.Props.NameHashes
import Verif.Engine.Naive
import Verif.Props.NaiveEngine
import Verif.Engine.Equal
import Verif.Props.UserEquality
import Verif.Props.ThunkMap
import Verif.Props.SortNames
import Verif.Engine.Conv
import Verif.Collections.SortProg
import Verif.Props.SortEngine
import Verif.Props.SortSession
import Verif.Engine.Reflect
import Verif.Props.ReflectDcg
import Verif.Props.Rerun
import Verif.Props.NameStrings
import Verif.Props.TreeEngine
import Verif.Props.Pipeline
import Verif.Props.Demand
import Verif.Macros.Model
import Verif.Props.Macros
import Verif.Props.Firewall
import Verif.Props.Cycles
import Verif.Props.Reuse
import Verif.Engine.EditSession
import Verif.Collections.ListProg
import Verif.Props.ListEngine
import Verif.Collections.FoldProg
import Verif.Props.FoldEngine
import Verif.Props.Prune
import Verif.Engine.EditRun
import Verif.Engine.Settled
import Verif.Props.ListStable
import Verif.Props.TreeStable
import Verif.Catalog.TrieProg
import Verif.Props.TrieEngine
import Verif.Collections.MergeProg
import Verif.Props.MergeEngine
import Verif.Collections.CostModel
import Verif.Props.SortCost
import Verif.Props.MemoCount
import Verif.Props.ForceMapCount
import Verif.Props.RevStable
import Verif.Props.OnlyDemanded
import Verif.Props.LazyList
import Verif.Engine.Act
import Verif.Props.TopLevel
import Verif.Catalog.RecProg
import Verif.Props.RecEngine
import Verif.Props.RecStable
import Verif.Validation
import Verif.Props.Amortised
import Verif.Engine.Rename
import Verif.Props.Parametric
import Verif.Props.CleanCost
import Verif.Props.Space
import Verif.Props.Evaluations
import Verif.Engine.Query
import Verif.Collections.MapProg
import Verif.Props.MapEngine
import Verif.Props.ListOfVec
import Verif.Props.TrieLookup
import Verif.Props.ListDemand
import Verif.Engine.Owed
import Verif.Props.Owners
import Verif.Props.Independence
import Verif.Catalog.ArithParse
import Verif.Props.Arith
import Verif.Props.ArithTok
import Verif.Engine.Reuse
import Verif.Props.Exactly
