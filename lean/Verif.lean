import Verif.Model.Cli
import Verif.Samples
import Verif.Props.Lexer
import Verif.Props.Parser
import Verif.Props.Grammar
import Verif.Props.Layout
import Verif.Props.Cli
import Verif.Props.Roundtrip
import Verif.Props.Stable
import Verif.Props.CliEnd
import Verif.Props.CliReport
import Verif.Props.Idempotent
import Verif.Props.OneLine
import Verif.Props.Breaks
import Verif.Props.Indent
import Verif.Props.Whole
import Verif.Props.Lists
import Verif.Props.Accept
import Verif.Props.Lexemes
import Verif.Props.Viable
import Verif.Props.Early
import Verif.Props.Blanks
import Verif.Props.Join
import Verif.Props.Messages
import Verif.Props.Fixed
import Verif.Props.Kept
import Verif.Props.Bare
import Verif.Props.Platform
import Verif.Props.Spacing
import Verif.Props.Beginning
import Verif.Props.Blocks
import Verif.Props.Library
import Verif.Props.Notes
import Verif.Props.Wrapping
import Verif.Props.Local
import Verif.Props.Insert
import Verif.Props.Rename
import Verif.Props.Work
import Verif.Props.Swap
import Verif.Props.Deep
import Verif.Props.Recursion
import Verif.Props.Moved
import Verif.Props.Effort
import Verif.Props.LexWork
import Verif.Props.Reorder
import Verif.Props.Crash
import Verif.Props.CliOrder
import Verif.Props.Items
import Verif.Props.CommentLines
import Verif.Props.Replace
import Verif.Props.Distinct
import Verif.Props.MessageOrder
import Verif.Props.Options
import Verif.Props.CliCheck
import Verif.Props.Named
import Verif.Props.Mark
import Verif.Props.NoCode
