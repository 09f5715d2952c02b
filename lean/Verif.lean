import Verif.Spec.Semantics
import Verif.Spec.Shapes
import Verif.Props.Transform
import Verif.Props.Rewrite
import Verif.Props.Unroll
import Verif.Props.Delay
import Verif.Props.Printing
import Verif.Props.Graph
import Verif.Props.Backend
import Verif.Spec.Assembly
import Verif.Props.Assembly
import Verif.Props.Binary
import Verif.Props.Atomics
import Verif.Props.Monitor
import Verif.Props.Arena
import Verif.Props.EndToEnd
import Verif.Props.Booleanizer
import Verif.Props.Desugar
import Verif.Props.Expand
import Verif.Props.TypeCheck
import Verif.Props.Command
import Verif.Props.Console
import Verif.Props.Map
import Verif.Props.Wcet
import Verif.Props.Smt
import Verif.Model.Egg
import Verif.Spec.Egg
import Verif.Lemmas.Egg
import Verif.Lemmas.EggIo
import Verif.Model.Extract
import Verif.Spec.Extract
import Verif.Lemmas.Extract
import Verif.Lemmas.Relink
import Verif.Props.Egg
import Verif.Model.Sabre
import Verif.Spec.Sabre
import Verif.Lemmas.Sabre
import Verif.Lemmas.SabreOps
import Verif.Lemmas.SabreRun
import Verif.Props.Sabre
import Verif.Lemmas.TypeCheckConfig
import Verif.Model.Mltl
import Verif.Spec.Mltl
import Verif.Lemmas.Mltl
import Verif.Lemmas.MltlPrec
import Verif.Props.Mltl
import Verif.Model.Parser
import Verif.Spec.Grammar
import Verif.Spec.Lexical
import Verif.Lemmas.Grammar
import Verif.Lemmas.GrammarSound
import Verif.Lemmas.GrammarProgram
import Verif.Lemmas.Lexing
import Verif.Lemmas.Spelling
import Verif.Model.Write
import Verif.Spec.Write
import Verif.Lemmas.Write
import Verif.Lemmas.WriteProgram
import Verif.Props.Write
import Verif.Props.Grammar
import Verif.Model.GraphPass
import Verif.Spec.GraphPass
import Verif.Lemmas.GraphPass
import Verif.Lemmas.GraphRules
import Verif.Lemmas.GraphRead
import Verif.Lemmas.GraphRel
import Verif.Props.GraphPass
import Verif.Lemmas.GraphShape
import Verif.Lemmas.GraphTidy
import Verif.Model.Pipeline
import Verif.Lemmas.Pipeline
import Verif.Props.Pipeline
import Verif.Lemmas.GraphEnds
import Verif.Lemmas.GraphEndsRules
import Verif.Lemmas.GraphEndsNnf
import Verif.Lemmas.PipelineEnds
import Verif.Props.GraphEnds
import Verif.Spec.Compile
import Verif.Lemmas.Apart
import Verif.Lemmas.CompileRel
import Verif.Lemmas.CompileChain
import Verif.Model.Compile
import Verif.Lemmas.Compile
import Verif.Props.Compile
import Verif.Model.FrontEnd
import Verif.Spec.FrontEnd
import Verif.Lemmas.FrontEnd
import Verif.Props.FrontEnd
import Verif.Model.Rust
import Verif.Model.RustBounds
import Verif.Spec.Rust
import Verif.Lemmas.RustOps
import Verif.Lemmas.RustSim
import Verif.Lemmas.RustRun
import Verif.Lemmas.RustLoad
import Verif.Lemmas.RustStart
import Verif.Lemmas.RustUpdate
import Verif.Props.Rust
import Verif.Props.RustCompile
import Verif.Props.RustUpdate
import Verif.Model.Trace
import Verif.Model.Csv
import Verif.Spec.Trace
import Verif.Spec.Csv
import Verif.Lemmas.Trace
import Verif.Lemmas.Csv
import Verif.Props.Trace
import Verif.Props.Csv
import Verif.Props.RustFrontEnd
import Verif.Model.Event
import Verif.Spec.Event
import Verif.Lemmas.Event
import Verif.Lemmas.EventRun
import Verif.Lemmas.EventCsv
import Verif.Props.Event
import Verif.Model.Names
import Verif.Spec.Names
import Verif.Lemmas.Names
import Verif.Props.Names
import Verif.Model.BzCsv
import Verif.Spec.BzCsv
import Verif.Lemmas.BzCsv
import Verif.Props.BzCsv
import Verif.Lemmas.Link
import Verif.Model.CompileBz
import Verif.Spec.CompileBz
import Verif.Lemmas.CompileBz
import Verif.Props.CompileBz
import Verif.Model.RustBz
import Verif.Spec.RustBz
import Verif.Lemmas.RustBz
import Verif.Props.RustBz
import Verif.Props.RustCompileBz
import Verif.Props.RustFloats
import Verif.Props.RustCli
import Verif.Props.BzCsvCompile
import Verif.Props.RustCliText
import Verif.Props.RustArith
import Verif.Model.RustNames
import Verif.Spec.RustNames
import Verif.Lemmas.RustNames
import Verif.Props.RustNames
import Verif.Props.RustNamesBz
import Verif.Model.NamesBz
import Verif.Props.NamesBz
import Verif.Spec.RustStamps
import Verif.Lemmas.RustStamps
import Verif.Props.RustStamps
import Verif.Model.RustEvent
import Verif.Spec.RustEvent
import Verif.Lemmas.RustEvent
import Verif.Lemmas.RustEventTool
import Verif.Props.RustEvent
import Verif.Props.EventTimes
import Verif.Spec.ExtractGraph
import Verif.Lemmas.ExtractGraph
import Verif.Props.ExtractGraph
