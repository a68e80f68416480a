import Verif.Model.Literal
import Verif.Model.Term
import Verif.Props.Literals
import Verif.Props.BitVectors
import Verif.Props.Slices
import Verif.Props.Conversions
import Verif.Props.LitWf
import Verif.Props.Flags
import Verif.Props.Match
import Verif.Props.Lists
import Verif.Props.ListsLeft
import Verif.Props.Eval
import Verif.Props.Core
import Verif.Props.Store
import Verif.Props.Order
import Verif.Props.Typing
import Verif.Props.Ops
import Verif.Props.OpTypes
import Verif.Props.ListTypes
import Verif.Props.Desugar
import Verif.Props.Overload
import Verif.Props.Macro
import Verif.Props.Scope
import Verif.Props.Files
import Verif.Props.Rules
import Verif.Props.Reference
import Verif.Props.Programs
import Verif.Props.Reduced
import Verif.Props.ReducedOps
import Verif.Props.Lexer
import Verif.Props.Print
import Verif.Props.Path
import Verif.Props.Elab
import Verif.Props.History
import Verif.Props.Sound
import Verif.Props.Checked
import Verif.Props.Datatype
import Verif.Props.SymTypes
import Verif.Props.Reader
import Verif.Props.CmdReader
import Verif.Props.TextRun
import Verif.Props.Reread
import Verif.Props.CommandLine
import Verif.Props.TypeCache
import Verif.Props.Later
import Verif.Props.EndToEnd
import Verif.Props.Determined
import Verif.Lemmas.StateTerms
import Verif.Lemmas.Zone
import Verif.Lemmas.SelfFree
import Verif.Props.Param
import Verif.Spec.Sharing
import Verif.Lemmas.Sharing
import Verif.Props.Sharing
import Verif.Spec.ListDefs
import Verif.Lemmas.ListDefs
import Verif.Lemmas.ListProgs
import Verif.Lemmas.ListRuns
import Verif.Lemmas.ListEquiv
import Verif.Props.ListDefs
import Verif.Props.ListDefsExample
import Verif.Spec.Safety
import Verif.Lemmas.Safety
import Verif.Lemmas.SafetyOps
import Verif.Lemmas.SafetyMach
import Verif.Props.Safety
import Verif.Lemmas.SafetyBuild
import Verif.Props.SafetyBuild
import Verif.Spec.Rename
import Verif.Lemmas.Rename
import Verif.Lemmas.RenameEval
import Verif.Lemmas.RenameBuild
import Verif.Props.Rename
import Verif.Spec.Substitution
import Verif.Lemmas.Substitution
import Verif.Props.Substitution
import Verif.Props.Reset
import Verif.Props.Attributes
import Verif.Props.Meaning
import Verif.Props.LitTypes
import Verif.Props.Accept
import Verif.Props.OverloadOrder
