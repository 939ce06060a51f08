import Verif.AST.Loc
import Verif.AST.Unboxed
import Verif.Access.Element
import Verif.Access.Model
import Verif.Access.Props
import Verif.Access.Slice
import Verif.Arr.BuiltinLemmas
import Verif.Arr.BuiltinProps
import Verif.Arr.Builtins
import Verif.Arr.Lemmas
import Verif.Arr.Model
import Verif.Arr.Props
import Verif.Arr.Spec
import Verif.Base64.Model
import Verif.Base64.Props
import Verif.Base64.Spec
import Verif.Blackbox.Model
import Verif.Blackbox.Props
import Verif.Blackbox.Spec
import Verif.BoolFlat.Basic
import Verif.BoolFlat.Bind
import Verif.BoolFlat.Clause
import Verif.BoolFlat.Meaning
import Verif.BoolFlat.Model
import Verif.BoolFlat.Props
import Verif.BoolFlat.Syntax
import Verif.BoolOpt.Model
import Verif.BoolOpt.Props
import Verif.BoolOpt.Run
import Verif.BoolOpt.Spec
import Verif.BoolOpt.Steps
import Verif.Bounds.Lemmas
import Verif.Bounds.Model
import Verif.Bounds.Props
import Verif.Bounds.Sound
import Verif.Bounds.Spec
import Verif.Builtin.Arrays
import Verif.Builtin.Format
import Verif.Builtin.Intersect
import Verif.Builtin.OpBounds
import Verif.Builtin.Sets
import Verif.Call.Basic
import Verif.Call.Calls
import Verif.Call.Flatten
import Verif.Call.Induct
import Verif.Call.Model
import Verif.Call.Props
import Verif.Call.Spec
import Verif.Chain.Imp
import Verif.Chain.ImpProps
import Verif.Chain.Le
import Verif.Chain.LeProps
import Verif.Chain.Props
import Verif.Chan.Arg
import Verif.Chan.Inverse
import Verif.Chan.Model
import Verif.Chan.Props
import Verif.Chan.Sort
import Verif.Chan.Spec
import Verif.Chan.Sums
import Verif.CmdLine.Model
import Verif.CmdLine.Props
import Verif.Comp.Flatten
import Verif.Comp.Index
import Verif.Comp.Model
import Verif.Comp.Move
import Verif.Comp.Props
import Verif.Comp.Spec
import Verif.Comp.Trans
import Verif.Conf.Model
import Verif.Conf.Params
import Verif.Conf.Props
import Verif.Conf.Select
import Verif.Conf.Spec
import Verif.CopyAst.Inv
import Verif.CopyAst.Model
import Verif.CopyAst.Props
import Verif.CopyAst.Spec
import Verif.Count.Lemmas
import Verif.Count.Model
import Verif.Count.Props
import Verif.Count.Spec
import Verif.Dbl.Lemmas
import Verif.Dbl.Model
import Verif.Domain.Model
import Verif.Domain.Props
import Verif.Enums.Eval
import Verif.Enums.Layout
import Verif.Enums.Model
import Verif.Enums.Props
import Verif.Enums.Sets
import Verif.Enums.Spec
import Verif.Enums.Text
import Verif.Eval.Agg
import Verif.Eval.Calls
import Verif.Eval.Fits
import Verif.Eval.Model
import Verif.Eval.Props
import Verif.Eval.Rep
import Verif.Eval.Sound
import Verif.Eval.Spec
import Verif.Eval.Syntax
import Verif.Eval.Total
import Verif.Eval.TotalE
import Verif.ExprEq.Cse
import Verif.ExprEq.Hash
import Verif.ExprEq.Model
import Verif.ExprEq.Order
import Verif.ExprEq.Props
import Verif.Ext.Auto
import Verif.Ext.CostMdd
import Verif.Ext.Mdd
import Verif.Ext.Model
import Verif.Ext.Props
import Verif.Ext.Spec
import Verif.Ext.Table
import Verif.FznCmd.Driver
import Verif.FznCmd.DriverProps
import Verif.FznCmd.DriverSpec
import Verif.FznCmd.Model
import Verif.FznCmd.Props
import Verif.FznCmd.Spec
import Verif.FznCmd.Step
import Verif.GC.HandleLemmas
import Verif.GC.HandleProps
import Verif.GC.Handles
import Verif.GC.Heap
import Verif.GC.HeapAlloc
import Verif.GC.HeapLemmas
import Verif.GC.HeapNew
import Verif.GC.HeapProps
import Verif.GC.HeapSweep
import Verif.GC.Mark
import Verif.GC.MarkLemmas
import Verif.GC.MarkLoop
import Verif.GC.MarkProps
import Verif.GC.MarkSpec
import Verif.GC.Trail
import Verif.GC.Weak
import Verif.Geas.Basic
import Verif.Geas.Bools
import Verif.Geas.Element
import Verif.Geas.Global
import Verif.Geas.Lemmas
import Verif.Geas.Lib
import Verif.Geas.Model
import Verif.Geas.Props
import Verif.Geas.Solve
import Verif.Geas.Spec
import Verif.Gecode.Basic
import Verif.Gecode.Cumul
import Verif.Gecode.Global
import Verif.Gecode.Model
import Verif.Gecode.Props
import Verif.Gecode.Spec
import Verif.Globals.Base
import Verif.Graph.CircuitLemmas
import Verif.Graph.DagLemmas
import Verif.Graph.Model
import Verif.Graph.PathLemmas
import Verif.Graph.Props
import Verif.Graph.Reach
import Verif.Graph.Spec
import Verif.Graph.TreeLemmas
import Verif.Incl.Load
import Verif.Incl.Model
import Verif.Incl.Own
import Verif.Incl.Props
import Verif.Incl.Spec
import Verif.IntOpt.Model
import Verif.IntOpt.Props
import Verif.IntOpt.Spec
import Verif.IntVal.Model
import Verif.IntVal.Props
import Verif.IntVal.Spec
import Verif.Ite.Model
import Verif.Ite.Props
import Verif.Ite.Split
import Verif.Ite.Struct
import Verif.Json.Coerce
import Verif.Json.Expr
import Verif.Json.Parse
import Verif.Json.ParseFails
import Verif.Json.ParseProps
import Verif.Json.ParseSpec
import Verif.Json.Show
import Verif.Json.Spec
import Verif.Json.Token
import Verif.Json.TokenProps
import Verif.Let.Basic
import Verif.Let.Flatten
import Verif.Let.Model
import Verif.Let.Props
import Verif.Let.Spec
import Verif.Lex.Ident
import Verif.Lex.Num
import Verif.Lex.StrLit
import Verif.Lex.StrSem
import Verif.LexOrd.Chain
import Verif.LexOrd.Lex
import Verif.LexOrd.Model
import Verif.LexOrd.Prec
import Verif.LexOrd.Props
import Verif.LexOrd.Spec
import Verif.LexOrd.Sym
import Verif.LinArith.Enc
import Verif.LinArith.Model
import Verif.LinArith.Props
import Verif.LinArith.Sets
import Verif.LinArith.Times
import Verif.LinGlob.Basic
import Verif.LinGlob.Circ
import Verif.LinGlob.Cum
import Verif.LinGlob.Model
import Verif.LinGlob.Props
import Verif.LinGlob.Reg
import Verif.LinLib.Base
import Verif.LinLib.Bools
import Verif.LinLib.Cmp
import Verif.LinLib.Flt
import Verif.LinLib.Model
import Verif.LinLib.Props
import Verif.Linear.FlattenLemmas
import Verif.Linear.FlattenModel
import Verif.Linear.FlattenProps
import Verif.Linear.FlattenSpec
import Verif.Linear.Lemmas
import Verif.Linear.Model
import Verif.Linear.Props
import Verif.Linear.Spec
import Verif.Linear.Total
import Verif.Mip.Abort
import Verif.Mip.Base
import Verif.Mip.Clique
import Verif.Mip.Decomp
import Verif.Mip.Flags
import Verif.Mip.Impl
import Verif.Mip.Join
import Verif.Mip.Main
import Verif.Mip.Model
import Verif.Mip.Process
import Verif.Mip.Props
import Verif.Mip.Relate
import Verif.Mip.Round
import Verif.Mip.Spec
import Verif.MipCuts.Model
import Verif.MipCuts.Props
import Verif.MipInst.Calls
import Verif.MipInst.Decl
import Verif.MipInst.Model
import Verif.MipInst.Post
import Verif.MipInst.Props
import Verif.MipInst.Spec
import Verif.NL.Collect
import Verif.NL.Counts
import Verif.NL.Dispatch
import Verif.NL.Index
import Verif.NL.Model
import Verif.NL.Print
import Verif.NL.Props
import Verif.NL.Real
import Verif.NL.Spec
import Verif.NL.Step
import Verif.NoSets.Lemmas
import Verif.NoSets.Model
import Verif.NoSets.Props
import Verif.NoSets.Spec
import Verif.Occ.Lemmas
import Verif.Occ.Model
import Verif.Occ.Props
import Verif.Occ.Spec
import Verif.Occ.Steps
import Verif.Occ.Unify
import Verif.OptCons.Lemmas
import Verif.OptCons.Model
import Verif.OptCons.Props
import Verif.OptCons.Spec
import Verif.OptTypes.Model
import Verif.OptTypes.Props
import Verif.OptTypes.Spec
import Verif.Options.Model
import Verif.Options.Props
import Verif.Overload.Model
import Verif.Overload.Order
import Verif.Overload.Order2
import Verif.Overload.Props
import Verif.Overload.Search
import Verif.PathNames.Model
import Verif.PathNames.Props
import Verif.PathNames.Spec
import Verif.Ranges.ExtOrder
import Verif.Ranges.Lemmas
import Verif.Ranges.Model
import Verif.Ranges.Props
import Verif.Ranges.Queries
import Verif.Ranges.Spec
import Verif.Regex.Lang
import Verif.Regex.Model
import Verif.Regex.Parse
import Verif.Regex.Props
import Verif.Regex.Spec
import Verif.Regex.Text
import Verif.Sched.Cumul
import Verif.Sched.Model
import Verif.Sched.Opt
import Verif.Sched.Pack
import Verif.Sched.Props
import Verif.Sched.Spec
import Verif.Scope.Complete
import Verif.Scope.Model
import Verif.Scope.Props
import Verif.Scope.Sorted
import Verif.Scope.Sound
import Verif.Scope.Spec
import Verif.SetPrint.Model
import Verif.SetPrint.Props
import Verif.Solns.Core
import Verif.Solns.History
import Verif.Solns.Interactive
import Verif.Solns.Model
import Verif.Solns.Props
import Verif.Strings.Levenshtein
import Verif.Strings.Model
import Verif.Strings.Props
import Verif.Syntax.LexProps
import Verif.Syntax.Model
import Verif.Syntax.ParseProps
import Verif.Syntax.Roundtrip
import Verif.Syntax.Spec
import Verif.Types.Comm
import Verif.Types.Common
import Verif.Types.Enc
import Verif.Types.Model
import Verif.Types.Sub
import Verif.Types.SubProps
import Verif.Utils.Model
import Verif.Utils.Props
import Verif.Utils.Spec
