import Verif.Pack.Thm
import Verif.Select.Thm
import Verif.Select.Refs
import Verif.Refs.Thm
import Verif.Load.Thm
import Verif.Load.Deps
import Verif.Text.Thm
import Verif.Text.Search
import Verif.Gen.Thm
import Verif.Gc.Thm
import Verif.Gc.Live
import Verif.Profile.Thm
import Verif.Profile.Report
import Verif.Profile.Stack
import Verif.Profile.Perf
import Verif.Support.Vector
import Verif.Support.Alloc
import Verif.Support.GetLine
import Verif.Args.Thm
import Verif.Support.StackAlloc
import Verif.TypeHeap.Full
import Verif.Compile.Program
import Verif.Compile.Wf
import Verif.Compile.Balance
import Verif.Compile.Flow
import Verif.Compile.Curry
import Verif.Fbld.Crash
import Verif.Types.Model
import Verif.Types.Kind
import Verif.Types.Spec
import Verif.Types.Sound
import Verif.Types.Equal
import Verif.Types.Complete
import Verif.Types.Thm
import Verif.Types.Infer
import Verif.Types.List
import Verif.Elab.Expr
import Verif.Elab.Model
import Verif.Elab.Heap
import Verif.Elab.Scopes
import Verif.Elab.Frame
import Verif.Elab.Ran
import Verif.Elab.Poly
import Verif.Elab.Named
import Verif.Elab.Letters
import Verif.Elab.Conv
import Verif.Elab.Roles
import Verif.Elab.Erase
import Verif.Elab.EraseAll
import Verif.Elab.Sim
import Verif.Elab.Meaning
import Verif.Elab.Run
import Verif.Elab.Program
import Verif.Elab.C16
import Verif.Elab.C17
import Verif.Unused.Model
import Verif.Unused.Spec
import Verif.Unused.C21
import Verif.Elab.Unsound
import Verif.Elab.WellFormed
import Verif.Safe.Types
import Verif.Safe.Typed
import Verif.Safe.Eval
import Verif.Safe.Heap
import Verif.Safe.Scope
import Verif.Safe.Check
import Verif.Safe.Check2
import Verif.Safe.CastSame
import Verif.Safe.LetHeap
import Verif.Safe.Let
import Verif.Safe.Let2
import Verif.Safe.Main
import Verif.Safe.Program
import Verif.Safe.Cast
import Verif.Safe.Rules
import Verif.Safe.Written
import Verif.Safe.Written2
import Verif.Safe.Written3
import Verif.Safe.Written4
import Verif.Safe.Written5
import Verif.Backend.Generic
import Verif.Backend.Rel
import Verif.Backend.Interp
import Verif.Backend.C
import Verif.Backend.CThm
import Verif.Backend.Blocks
import Verif.Backend.CProgram
import Verif.Backend.CValid
import Verif.Backend.Trace
import Verif.Backend.A64
import Verif.Backend.A64Lemmas
import Verif.Backend.A64Layout
import Verif.Backend.A64Thm
import Verif.Backend.A64Sim
import Verif.Backend.A64Program
import Verif.Backend.Typed
import Verif.Backend.A64Valid
import Verif.Backend.A64Text
import Verif.Backend.A64Encode
import Verif.Parse.Tables
import Verif.Parse.Items
import Verif.Parse.Check
import Verif.Parse.Machine
import Verif.Parse.Lr
import Verif.Parse.Syntax
import Verif.Parse.Model
import Verif.Parse.Tree
import Verif.Parse.Sim
import Verif.Parse.Run
import Verif.Parse.Final
import Verif.Parse.Thm
import Verif.Parse.Path
import Verif.Parse.File
import Verif.Whole.Mods
import Verif.Whole.Source
import Verif.Whole.Example
import Verif.NoCrash.Heap
import Verif.NoCrash.Ends
import Verif.NoCrash.Step
import Verif.NoCrash.Check
import Verif.NoCrash.Let
import Verif.NoCrash.Let2
import Verif.NoCrash.Spec
import Verif.NoCrash.Main
import Verif.NoCrash.Source
import Verif.NoCrash.Example
import Verif.NoCrash.Fuel
import Verif.NoCrash.Verdict
import Verif.FbldParse.Model
import Verif.FbldParse.Sim
import Verif.FbldParse.Fuel
import Verif.FbldParse.View
import Verif.FbldParse.Files
import Verif.FbldParse.Start
import Verif.FbldParse.Total
import Verif.FbldParse.Indent
import Verif.FbldParse.Grammar
import Verif.FbldParse.Gives
import Verif.FbldParse.Inline
import Verif.FbldParse.Lines
import Verif.FbldParse.Block
import Verif.FbldParse.Document
import Verif.FbldParse.Law
import Verif.FbldParse.Claims
import Verif.FbldParse.Command
import Verif.Host.Thm
import Verif.Host.Values
import Verif.Host.Streams
import Verif.Host.Example
import Verif.Host.Safe
import Verif.Host.StdioSafe
import Verif.Host.StdioExample
import Verif.Host.Undefined
import Verif.Host.App
import Verif.Host.AppSafe
import Verif.Host.Draw
import Verif.Host.Given
import Verif.Elab.Wide
import Verif.Whole.Stdio
import Verif.Whole.StdioExample
import Verif.Whole.Build
import Verif.Whole.BuildExample
import Verif.Whole.Deps
import Verif.Whole.DepsExample
import Verif.Whole.App
import Verif.Whole.Test
import Verif.Backend.Dis
import Verif.Whole.Disassemble
import Verif.Load.Order
import Verif.Whole.Link
import Verif.Gen.DataC
import Verif.Profile.PerfMain
import Verif.Profile.PerfGraph
import Verif.Profile.PerfWhole
import Verif.Parse.PrintType
import Verif.Parse.PrintHeap
