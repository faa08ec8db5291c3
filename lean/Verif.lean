import Verif.Model.Collections
import Verif.Model.Outcome
import Verif.Model.Grammar
import Verif.Model.Tabler
import Verif.Model.Automaton
import Verif.Model.Lalr
import Verif.Model.Dfa
import Verif.Model.Span
import Verif.Props.Tables
import Verif.Props.Automaton
import Verif.Props.Lalr
import Verif.Props.Errors
import Verif.Props.Halt
import Verif.Props.Linear
import Verif.Props.Power
import Verif.Spec.Knuth
import Verif.Proofs.Knuth
import Verif.Props.Knuth
import Verif.Spec.Rename
import Verif.Proofs.Rename
import Verif.Props.Rename
import Verif.Proofs.Lalr1
import Verif.Proofs.LalrSound
import Verif.Props.Lalr1
import Verif.Props.RenameLalr
import Verif.Props.Hang
import Verif.Props.Suffices
import Verif.Spec.Hang
import Verif.Proofs.Hang
import Verif.Proofs.Ll1
import Verif.Props.Ll1
import Verif.Proofs.NoMerge
import Verif.Props.NoMerge
import Verif.Model.Effects
import Verif.Spec.Effects
import Verif.Proofs.Effects
import Verif.Props.Effects
import Verif.Props.Suite
import Verif.Props.Equals
import Verif.Model.Main
import Verif.Props.Views
import Verif.Model.WopAst
import Verif.Model.WopBuilder
import Verif.Spec.Wop
import Verif.Proofs.Wop
import Verif.Proofs.WopExpand
import Verif.Proofs.WopSingle
import Verif.Proofs.WopProgram
import Verif.Proofs.WopValues
import Verif.Props.Wop
import Verif.Model.WopOut
import Verif.Spec.WopSyntax
import Verif.Proofs.WopParse
import Verif.Props.WopOut
import Verif.Model.WopLexer
import Verif.Spec.WopLex
import Verif.Proofs.WopLex
import Verif.Props.WopLex
import Verif.Props.Bootstrap
import Verif.Props.BootFile
import Verif.Model.WopGen
import Verif.Spec.WopLang
import Verif.Proofs.WopGen
import Verif.Props.WopGen
import Verif.Model.WopMain
import Verif.Proofs.WopMain
import Verif.Props.WopMain
import Verif.Model.WopText
import Verif.Spec.WopText
import Verif.Proofs.WopText
import Verif.Proofs.WopDump
import Verif.Props.WopText
import Verif.Proofs.WopTypes
import Verif.Props.WopTypes
import Verif.Model.Stream
import Verif.Spec.Stream
import Verif.Proofs.Stream
import Verif.Props.Stream
import Verif.Spec.Folding
import Verif.Proofs.Folding
import Verif.Props.Folding
import Verif.Proofs.Expected
import Verif.Props.Expected
import Verif.Model.Demo
import Verif.Spec.Trace
import Verif.Proofs.Trace
import Verif.Props.Trace
import Verif.Spec.Demo
import Verif.Proofs.Demo
import Verif.Props.Demo
import Verif.Spec.Reuse
import Verif.Proofs.Reuse
import Verif.Props.Reuse
import Verif.Model.Text
import Verif.Spec.Text
import Verif.Proofs.Text
import Verif.Props.Text
import Verif.Model.WopPrint
import Verif.Proofs.WopPrint
import Verif.Proofs.WopFile
import Verif.Props.WopFile
import Verif.Proofs.WopLegible
import Verif.Props.WopLegible
import Verif.Model.Debug
import Verif.Spec.Again
import Verif.Proofs.Again
import Verif.Proofs.AgainLook
import Verif.Props.Again
import Verif.Spec.Agree
import Verif.Proofs.Agree
import Verif.Props.Agree
import Verif.Spec.Fewer
import Verif.Proofs.Fewer
import Verif.Props.Fewer
import Verif.Proofs.Same
import Verif.Props.Same
import Verif.Proofs.Debug
import Verif.Props.Debug
import Verif.Proofs.Meets
import Verif.Props.Meets
import Verif.Spec.WopBuild
import Verif.Proofs.WopBuild
import Verif.Props.WopBuild
import Verif.Spec.Refill
import Verif.Proofs.Refill
import Verif.Props.Refill
import Verif.Props.Ambiguous
import Verif.Spec.Stack
import Verif.Proofs.Stack
import Verif.Props.Stack
import Verif.Spec.Wrap
import Verif.Proofs.Wrap
import Verif.Props.Wrap
import Verif.Spec.Brackets
import Verif.Proofs.Brackets
import Verif.Proofs.BracketsSlr
import Verif.Props.Brackets
import Verif.Proofs.WopOrder
import Verif.Props.WopOrder
import Verif.Spec.Unit
import Verif.Proofs.Forever
import Verif.Props.Forever
import Verif.Spec.Reorder
import Verif.Proofs.Reorder
import Verif.Props.Reorder
import Verif.Spec.Loose
import Verif.Proofs.Loose
import Verif.Props.Loose
import Verif.Spec.Moved
import Verif.Proofs.Embed
import Verif.Proofs.EmbedTable
import Verif.Proofs.EmbedLalr
import Verif.Proofs.EmbedNew
import Verif.Proofs.EmbedRun
import Verif.Proofs.Moved
import Verif.Props.Moved
import Verif.Spec.Shrink
import Verif.Props.Shrink
import Verif.Spec.Related
import Verif.Proofs.Related
import Verif.Props.Related
import Verif.Proofs.Unread
import Verif.Props.Unread
import Verif.Spec.Twice
import Verif.Proofs.Twice
import Verif.Props.Twice
import Verif.Props.Entry
import Verif.Proofs.Mend
import Verif.Props.Mend
import Verif.Proofs.Finish
import Verif.Props.Finish
import Verif.Proofs.Sequence
import Verif.Proofs.SequenceSlr
import Verif.Props.Sequence
import Verif.Spec.Host
import Verif.Proofs.Host
import Verif.Proofs.HostLang
import Verif.Proofs.HostSlr
import Verif.Props.Host
import Verif.Spec.Choice
import Verif.Proofs.Choice
import Verif.Props.Choice
import Verif.Spec.Refine
import Verif.Proofs.Refine
import Verif.Props.Refine
import Verif.Spec.Divide
import Verif.Proofs.Divide
import Verif.Props.Divide
import Verif.Proofs.SequenceLalr
import Verif.Props.SequenceLalr
import Verif.Proofs.HostLalr
import Verif.Props.HostLalr
