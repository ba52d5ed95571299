import Verif.SrcSpan.Props
import Verif.Fields.Props
import Verif.Version.Props
import Verif.Etf.Props
import Verif.Strings.Props
import Verif.Operators.Props
import Verif.Pretty.Props
import Verif.DepTree.Props
import Verif.Project.ProductionProps
import Verif.Project.StaleProps
import Verif.Project.UnlockProps
import Verif.Project.ChangesProps
import Verif.Project.DownloadProps
import Verif.Project.ChecksumProps
import Verif.Locks.Props
import Verif.Uid.Props
import Verif.Comments.Props
import Verif.Numbers.Props
import Verif.BitArrays.Props
import Verif.Equality.Props
import Verif.Files.Props
import Verif.JsNames.Props
import Verif.Unify.Props
import Verif.CallGraph.Props
import Verif.Build.Witnesses
import Verif.Case.Props
import Verif.Case.Witnesses
import Verif.JsCase.Props
import Verif.JsCase.Witnesses
import Verif.Segments.Props
import Verif.Segments.Witnesses
import Verif.Lexer.Props
import Verif.Lexer.Witnesses
import Verif.ErlText.Props
import Verif.ErlText.Witnesses
import Verif.ErlGen.Props
import Verif.ErlGen.Witnesses
import Verif.JsGen.Witnesses
import Verif.JsGen.Fragment
import Verif.JsGen.Props
import Verif.Infer.Props
import Verif.Infer.AnnotationProps
import Verif.Infer.PrincipalProps
import Verif.Infer.EndsProps
import Verif.TypeText.Props
import Verif.TypeText.Witnesses
import Verif.Unused.Props
import Verif.Unused.Witnesses
import Verif.Sugar.Props
import Verif.Sugar.Witnesses
import Verif.Format.Props
import Verif.Format.PatternProps
import Verif.Format.AnnotationProps
import Verif.Format.ImportProps
import Verif.Format.TypeDefProps
import Verif.Format.DefinitionProps
import Verif.Format.FunctionProps
import Verif.Format.FileProps
import Verif.Format.StatementProps
