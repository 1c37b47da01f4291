import Verif.Match.Props
import Verif.Codegen.Props
import Verif.Codegen.ArrayProps
import Verif.Codegen.ArithProps
import Verif.Codegen.EvalAgree
import Verif.Types.Invert
import Verif.Hir.ParamProps
import Verif.Impl.Props
import Verif.Mir.AliasProps
import Verif.Mir.DiffProps
import Verif.Mir.SplitRegsProps
import Verif.Mir.GatingProps
import Verif.Mir.DedupProps
import Verif.Linear.Props
import Verif.Infer.Kinds
import Verif.Infer.Replacement
import Verif.Infer.Require
import Verif.Infer.UnifyOuter
import Verif.Parse.Props
import Verif.Mono.Props
import Verif.Pipe.StallProps
import Verif.Pipe.Condition
import Verif.Lower.Examples
import Verif.Symtab.PathExamples
import Verif.Loc.Props
import Verif.Ids.Props
import Verif.Ids.Intern
import Verif.Inline.Examples
import Verif.Vcd.Examples
import Verif.Sim.Examples
import Verif.Expr.Examples
import Verif.Expr.ExistsExamples
import Verif.Expr.CompileExamples
import Verif.Entity.Examples
import Verif.Entity.MemExamples
import Verif.Method.Examples
import Verif.Check.Examples
import Verif.Trait.Examples
import Verif.GenIf.Examples
import Verif.Lambda.Examples
import Verif.Fifo.Examples
import Verif.Cdc.Examples
import Verif.Std.Examples
import Verif.Std.OpsExamples
import Verif.Elab.Examples
import Verif.Decl.Examples
import Verif.Super.Examples
import Verif.Lex.Examples
import Verif.Auto.Examples
import Verif.Stream.Examples
import Verif.Pass.Examples
import Verif.Pass.CompiledExamples
import Verif.Pass.SourceExamples
import Verif.Cxx.Examples
import Verif.Units.Examples
import Verif.Editor.Examples
import Verif.Hier.Examples
import Verif.Hier.DemangleExamples
import Verif.Files.Examples
import Verif.Query.Examples
import Verif.Query.LocalsExamples
