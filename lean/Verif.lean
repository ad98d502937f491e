import Verif.Ints.Props
import Verif.Num.Props
import Verif.RealConv.Props
import Verif.Strings.Props
import Verif.Equal.Props
import Verif.Marshal.Props
import Verif.Marshal.Table
import Verif.IO.TextIO
import Verif.Heap.FreelistProps
import Verif.Heap.MinorProps
import Verif.Heap.MajorProps
import Verif.Heap.PageTableProps
import Verif.Stack.Props
import Verif.Md5.Props
import Verif.Md5.Sine
import Verif.Maps.BinarymapProps
import Verif.Maps.RedblackmapProps
import Verif.Maps.SplaymapProps
import Verif.Sort.Listsort
import Verif.Sort.ArraysortProps
import Verif.Hash.PolyhashProps
import Verif.Lib.Buffer
import Verif.Lib.Dynarray
import Verif.Lib.Substring
import Verif.Lib.PathProps
import Verif.Yacc.Warshall
import Verif.Yacc.Closure
import Verif.Yacc.ClosureProps
import Verif.Yacc.Digraph
import Verif.Yacc.DigraphProps
import Verif.Yacc.Pack
import Verif.Yacc.PackLemmas
import Verif.Yacc.Mkpar
import Verif.Yacc.MkparProps
import Verif.Yacc.PackProps
import Verif.Parse.Model
import Verif.Parse.Spec
import Verif.Parse.Sim
import Verif.Parse.Grammar
import Verif.Parse.Props
import Verif.Parse.Example
import Verif.Infix.Model
import Verif.Infix.Spec
import Verif.Infix.Lemmas
import Verif.Infix.Props
import Verif.Lex.Model
import Verif.Lex.Spec
import Verif.Lex.Nfa
import Verif.Lex.Encode
import Verif.Lex.Dfa
import Verif.Lex.Exec
import Verif.Lex.Output
import Verif.Lex.Props
import Verif.Lex.Sugar
import Verif.Lex.Buffer
import Verif.Lex.BufferProps
import Verif.Match.Model
import Verif.Match.Spec
import Verif.Match.Dag
import Verif.Match.Desc
import Verif.Match.Sem
import Verif.Match.Main
import Verif.Match.Lambda
import Verif.Match.Bind
import Verif.Match.Props
import Verif.Zam.Model
import Verif.Zam.Spec
import Verif.Zam.Pend
import Verif.Zam.Labels
import Verif.Zam.Rel
import Verif.Zam.World
import Verif.Zam.Ctrl
import Verif.Zam.Enter
import Verif.Zam.Args
import Verif.Zam.Prims
import Verif.Zam.Clos
import Verif.Zam.Sim
import Verif.Zam.Sim2
import Verif.Zam.Sim3
import Verif.Zam.Lift
import Verif.Zam.Whole
import Verif.Zam.NoFatal
import Verif.Zam.Check
import Verif.Zam.Props
import Verif.Unref.Model
import Verif.Unref.Spec
import Verif.Unref.Rel
import Verif.Unref.Sim
import Verif.Unref.SimEval
import Verif.Unref.Pass
import Verif.Unref.Step
import Verif.Unref.Whole
import Verif.Unref.Props
import Verif.Emit.Props
import Verif.Emit.PoolProps
import Verif.Cond.Props
import Verif.Cond.DecideProps
import Verif.Link.Props
import Verif.Front.Props
import Verif.Expand.Model
import Verif.Expand.Spec
import Verif.Expand.Operands
import Verif.Expand.Loop
import Verif.Expand.Image
import Verif.Expand.Props
import Verif.Typing.Model
import Verif.Typing.Spec
import Verif.Typing.Safe
import Verif.Typing.Solve
import Verif.Typing.Infer
import Verif.Typing.Complete
import Verif.Typing.Principal
import Verif.Typing.Props
import Verif.Dates.Model
import Verif.Dates.Spec
import Verif.Dates.Lemmas
import Verif.Dates.LemmasNorm
import Verif.Dates.LemmasText
import Verif.Dates.Props
import Verif.Sets.Order
import Verif.Sets.Merge
import Verif.Sets.Rbset
import Verif.Sets.RbsetTrees
import Verif.Sets.RbsetLemmas
import Verif.Sets.RbsetProps
import Verif.Sets.Binaryset
import Verif.Sets.BinarysetTrees
import Verif.Sets.BinarysetLemmas
import Verif.Sets.BinarysetProps
import Verif.Sets.Splayset
import Verif.Sets.SplaysetLemmas
import Verif.Sets.SplaysetProps
import Verif.Floats.Model
import Verif.Floats.Lemmas
import Verif.Rand.Model
import Verif.Rand.Period
import Verif.Rand.Lemmas
import Verif.Rand.Props
import Verif.RealText.Spec
import Verif.RealText.Model
import Verif.RealText.Lemmas
import Verif.RealText.LemmasScan
import Verif.RealText.LemmasVal
import Verif.RealText.LemmasFmt
import Verif.RealText.Props
import Verif.Times.Spec
import Verif.Times.Model
import Verif.Times.Lemmas
import Verif.Times.Props
import Verif.Regexes.Model
import Verif.Regexes.Spec
import Verif.Regexes.Lemmas
import Verif.Regexes.Props
import Verif.Arrays.Model
import Verif.Arrays.Spec
import Verif.Arrays.Lemmas
import Verif.Arrays.Copy
import Verif.Arrays.Safe
import Verif.Arrays.Props
import Verif.Matrix.Model
import Verif.Matrix.Spec
import Verif.Matrix.Lemmas
import Verif.Matrix.Traverse
import Verif.Matrix.Make
import Verif.Matrix.Tab
import Verif.Matrix.Copy
import Verif.Matrix.Safe
import Verif.Matrix.Props
import Verif.Cgi.Model
import Verif.Cgi.Spec
import Verif.Cgi.Lemmas
import Verif.Cgi.Multi
import Verif.Cgi.Props
import Verif.Pretty.Model
import Verif.Pretty.Spec
import Verif.Pretty.Tokens
import Verif.Pretty.Buffer
import Verif.Pretty.Print
import Verif.Pretty.Advance
import Verif.Pretty.Sim
import Verif.Pretty.Final
import Verif.Pretty.Layout
import Verif.Pretty.Props
import Verif.Hash.Hashset
import Verif.Hash.HashsetProps
import Verif.Lists.Model
import Verif.Lists.Spec
import Verif.Lists.Props
import Verif.Text.Model
import Verif.Text.Spec
import Verif.Text.Lemmas
import Verif.Text.StringProps
import Verif.Text.SubstringProps
import Verif.Text.CvtProps
import Verif.Signals.Model
import Verif.Signals.Spec
import Verif.Signals.Lemmas
import Verif.Signals.Props
import Verif.Source.Model
import Verif.Source.Spec
import Verif.Source.Rules
import Verif.Source.Lemmas
import Verif.Source.Comments
import Verif.Source.Props
import Verif.Lazy.Model
import Verif.Lazy.Spec
import Verif.Lazy.Lemmas
import Verif.Lazy.Registry
import Verif.Lazy.Props
import Verif.Word8.Model
import Verif.Word8.Lemmas
import Verif.Word8.Props
import Verif.Loc.Model
import Verif.Loc.Spec
import Verif.Loc.Lemmas
import Verif.Loc.Props
import Verif.Files.Model
import Verif.Files.Spec
import Verif.Files.Lemmas
import Verif.Files.Props
import Verif.Proc.Model
import Verif.Proc.Props
import Verif.IntInf.Model
import Verif.IntInf.Props
import Verif.PackReal.Model
import Verif.PackReal.Spec
import Verif.PackReal.Props
import Verif.Cmdline.Model
import Verif.Cmdline.Props
import Verif.Old.Model
import Verif.Old.Props
import Verif.Help.Model
import Verif.Help.Props
import Verif.PM.Model
import Verif.PM.Props
import Verif.ArgParse.Model
import Verif.ArgParse.Props
import Verif.PM.Compile
import Verif.PM.CompileProps
import Verif.PM.Recompile
import Verif.PM.RecompileProps
import Verif.PM.Find
import Verif.PM.FindProps
import Verif.PM.TextProps
import Verif.Primdec.Model
import Verif.Primdec.Props
import Verif.GcCtrl.Model
import Verif.GcCtrl.Props
import Verif.Timer.Model
import Verif.Timer.Props
import Verif.Scan.Model
import Verif.Scan.Props
import Verif.Scan.Action
import Verif.Scan.ActionProps
import Verif.Scan.Char
import Verif.Scan.CharProps
import Verif.Startup.Model
import Verif.Startup.Props
