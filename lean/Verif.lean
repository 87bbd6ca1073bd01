import Verif.Model.Parser
import Verif.Model.Slice
import Verif.Props.Lexer
import Verif.Props.Base
import Verif.Props.Parser
import Verif.Props.Total
import Verif.Props.Errors
import Verif.Props.Round
import Verif.Props.Nesting
import Verif.Props.Walk
import Verif.Props.Json
import Verif.Model.Main
import Verif.Spec.Exit
import Verif.Props.Main
import Verif.Props.Print
import Verif.Props.Codegen
import Verif.Props.GoTypes
import Verif.Props.Validators
import Verif.Props.Config
import Verif.Props.Generate
import Verif.Props.Init
import Verif.Props.Repl
import Verif.Props.Layout
import Verif.Props.Order
import Verif.Props.Truth
import Verif.Props.Spans
import Verif.Props.Disk
import Verif.Model.Json
import Verif.Spec.Json
import Verif.Spec.JsonTree
import Verif.Spec.ConfigText
import Verif.Lemmas.ConfigText
import Verif.Lemmas.Height
import Verif.Props.ConfigText
import Verif.Props.Sentence
import Verif.Props.Session
import Verif.Props.Mend
import Verif.Props.Reorder
import Verif.Props.Remove
import Verif.Lemmas.JsonText
import Verif.Lemmas.JsonPrint
import Verif.Lemmas.JsonTree
import Verif.Lemmas.JsonFit
import Verif.Lemmas.JsonFile
import Verif.Spec.Prefix
import Verif.Lemmas.Prefix
import Verif.Lemmas.PrefixLex
import Verif.Props.Prefix
import Verif.Props.Concurrent
import Verif.Props.SameTokens
import Verif.Props.Rename
import Verif.Spec.Join
import Verif.Lemmas.Twins
import Verif.Lemmas.JoinLex
import Verif.Lemmas.Join
import Verif.Lemmas.LastLine
import Verif.Props.Join
import Verif.Lemmas.GenFrame
import Verif.Props.GenJoin
import Verif.Spec.TokenLine
import Verif.Tests.Lexer
import Verif.Tests.Parser
import Verif.Tests.Language
import Verif.Props.Once
import Verif.Props.Language
import Verif.Props.Uncomment
import Verif.Props.Recover
import Verif.Props.Redeclare
import Verif.Props.Rfc
import Verif.Props.Compile
import Verif.Props.Doctor
import Verif.Spec.Insert
import Verif.Lemmas.Brackets
import Verif.Lemmas.Insert
import Verif.Lemmas.InsertPart
import Verif.Lemmas.InsertFile
import Verif.Lemmas.CommentLines
import Verif.Props.Insert
import Verif.Spec.Data
import Verif.Lemmas.Data
import Verif.Props.Data
import Verif.Lemmas.Unused
import Verif.Props.Unused
import Verif.Spec.EndToEnd
import Verif.Props.EndToEnd
import Verif.Spec.Alone
import Verif.Lemmas.Alone
import Verif.Props.Alone
import Verif.Spec.Places
import Verif.Lemmas.Places
import Verif.Props.Places
import Verif.Spec.DiagOrder
import Verif.Props.DiagOrder
import Verif.Spec.Weight
import Verif.Lemmas.Weight
import Verif.Props.Weight
import Verif.Props.Work
