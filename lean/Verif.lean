import Verif.Parser
import Verif.Printer
import Verif.Transformer
import Verif.Props.Vlq
import Verif.Props.VlqFormat
import Verif.Props.Lexer
import Verif.Props.LexTokens
import Verif.Props.Sources
import Verif.Props.Parser
import Verif.Props.Resolver
import Verif.Props.Walk
import Verif.Props.Plugin
import Verif.Props.TransformBasic
import Verif.Props.Transform
import Verif.Props.TransformSafe
import Verif.Props.Printer
import Verif.Props.AnB
import Verif.Props.Compile
import Verif.Props.RoundTrip
import Verif.Props.LineTable
import Verif.Props.Ends
import Verif.Props.MapJson
import Verif.Props.CalcReports
import Verif.Props.TransformEnds
import Verif.Props.Comments
import Verif.Props.Bundle
import Verif.Conformance
import Verif.Props.Output
import Verif.Props.Spelling
import Verif.Props.Schedules
import Verif.Props.Paths
import Verif.Props.Located
import Verif.Props.Again
import Verif.CompileHeap
import Verif.Proofs.HeapTransform
import Verif.Proofs.HeapSim
import Verif.Props.Sharing
import Verif.Props.Frame
import Verif.Props.Alone
import Verif.Spec.Made
import Verif.Proofs.PrintLines
import Verif.Proofs.CompileMade
import Verif.Props.Truth
import Verif.Proofs.CompileTables
import Verif.Props.Maps
import Verif.Spec.Tidy
import Verif.Proofs.CompileTidy
import Verif.Proofs.SeqTidy
import Verif.Proofs.FullSame
import Verif.Props.Tidy
import Verif.Proofs.CompileOwn
import Verif.Proofs.CompileLive
import Verif.Proofs.CompileBound
import Verif.Proofs.CompileTrap
import Verif.Props.Live
import Verif.Spec.Crash
import Verif.Spec.Legible
import Verif.Proofs.CompileCrash
import Verif.Proofs.ParseNest
import Verif.Proofs.TransformTotal
import Verif.Proofs.CompileTame
import Verif.Props.Crash
import Verif.Props.Total
import Verif.Spec.Whole
import Verif.Props.Whole
import Verif.Props.Races
import Verif.Props.Recompile
import Verif.Spec.Cascade
import Verif.Proofs.Cascade
import Verif.Props.Cascade
import Verif.Spec.Project
import Verif.Proofs.Project
import Verif.Props.Project
import Verif.Spec.Var
import Verif.Proofs.Var
import Verif.Props.Var
import Verif.Props.VarWritten
import Verif.Spec.VarProject
import Verif.Props.VarProject
import Verif.Props.ProjectShared
import Verif.Spec.Win
import Verif.Props.Win
import Verif.Props.Follow
import Verif.Props.Loaded
