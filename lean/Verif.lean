import Verif.Py
import Verif.Lex
import Verif.LexLemmas
import Verif.Props.Lex
import Verif.Text
import Verif.Props.Text
import Verif.ArgSort
import Verif.Props.ArgSort
import Verif.Config
import Verif.Schema
import Verif.ConfigLemmas
import Verif.Props.Config
import Verif.Main
import Verif.Props.Main
import Verif.Lint
import Verif.LintLemmas
import Verif.Props.Lint
import Verif.Props.LintLines
import Verif.Props.LintMain
import Verif.Tree
import Verif.Parse
import Verif.ParseLemmas
import Verif.ParseTokens
import Verif.ParseFuel
import Verif.ParseMono
import Verif.ParseSpec
import Verif.ParseShape
import Verif.Props.Parse
import Verif.Wrap
import Verif.Markup
import Verif.MarkupSpec
import Verif.WrapLemmas
import Verif.Props.Markup
import Verif.Layout
import Verif.Write
import Verif.LayoutLemmas
import Verif.LayoutSpec
import Verif.Pieces
import Verif.MarkupLines
import Verif.Chain
import Verif.ParseNeat
import Verif.BoxTree
import Verif.Cover
import Verif.Props.Layout
import Verif.Props.Write
import Verif.Framed
import Verif.Notes
import Verif.NotesSame
import Verif.NotesProse
import Verif.NotesWalk
import Verif.NotesText
import Verif.NotesSeg
import Verif.Twin
import Verif.TwinTree
import Verif.ParseSeg
import Verif.TwinRoot
import Verif.Again
import Verif.Width
import Verif.Props.Width
import Verif.ParseSpread
import Verif.OutlineSpec
import Verif.Stack
import Verif.Calm
import Verif.Props.Blocks
import Verif.Props.MarkupLists
import Verif.ParseFuns
import Verif.CmdSpec
import Verif.SpecTables
import Verif.ParseDb
import Verif.DbSpec
import Verif.SpecLemmas
import Verif.DbLemmas
import Verif.Props.ParseDb
import Verif.Render
import Verif.Props.Render
import Verif.Relex
import Verif.RelexWeave
import Verif.RelexPieces
import Verif.Props.Relex
import Verif.SwitchSpec
import Verif.ParseSwitch
import Verif.Switch
import Verif.SwitchText
import Verif.Props.Switch
import Verif.Trail
import Verif.TrailPieces
import Verif.Props.Endings
import Verif.ParseBlank
import Verif.ParseSame
import Verif.ParseSameJobs
import Verif.ParseSameMore
import Verif.ParseSameAll
import Verif.SameDb
import Verif.SameSpec
import Verif.Props.Same
import Verif.Props.Again
import Verif.GroupSpec
import Verif.FormSpec
import Verif.Groups
import Verif.Props.Groups
import Verif.LintVars
import Verif.LintTree
import Verif.LintSpec
import Verif.LintSeq
import Verif.LintVisit
import Verif.LintFlat
import Verif.LintCount
import Verif.LintDead
import Verif.LintLinks
import Verif.LintReport
import Verif.LintParams
import Verif.Props.LintParams
import Verif.Props.LintTree
import Verif.Local
import Verif.LocalJobs
import Verif.LocalTop
import Verif.LocalSpec
import Verif.LocalDb
import Verif.Props.Local
import Verif.Props.LintOutput
import Verif.Gen
import Verif.GenRefs
import Verif.GenArgs
import Verif.GenFind
import Verif.GenTable
import Verif.GenSet
import Verif.GenOrder
import Verif.Props.Gen
import Verif.Props.GenOrder
import Verif.Tabs
import Verif.Props.Tabs
import Verif.LintParser
import Verif.LintMade
import Verif.LintFormSpec
import Verif.LintParserReport
import Verif.LintEmpty
import Verif.Props.LintForms
import Verif.LintNameSpec
import Verif.LintSet
import Verif.LintList
import Verif.LintNames
import Verif.Props.LintNames
import Verif.LintVarSpec
import Verif.LintVarNames
import Verif.Props.LintVarNames
import Verif.LintCounted
import Verif.LintDoneSpec
import Verif.LintFull
import Verif.LintClosed
import Verif.LintOk
import Verif.LintFine
import Verif.LintHalf
import Verif.LintSpaced
import Verif.Props.LintDone
import Verif.LintGaps
import Verif.LintGapText
import Verif.LintSpacing
import Verif.Props.LintSpacing
import Verif.Ctest
import Verif.Props.Ctest
import Verif.ArrangeSpec
import Verif.Arrange
import Verif.Props.Arrange
import Verif.LintDocSpec
import Verif.LintDoc
import Verif.Props.LintDoc
import Verif.Dump
import Verif.Props.Dump
import Verif.Annotate
import Verif.Props.Annotate
import Verif.DumpConfig
import Verif.PyBlocks
import Verif.Props.DumpConfig
import Verif.Props.DumpOptions
import Verif.LintPragma
import Verif.Props.LintPragma
import Verif.Props.Options
import Verif.LintIndent
import Verif.Props.LintIndent
import Verif.LintRefs
import Verif.Props.LintRefs
import Verif.WordSpec
import Verif.WordGroups
import Verif.Props.WordGroups
import Verif.Props.LintRequired
import Verif.LintHandSpec
import Verif.LintKeywords
import Verif.LintKeywordsSpec
import Verif.LintHand
import Verif.Props.LintHand
import Verif.Props.LintKeywords
import Verif.LintShortSpec
import Verif.LintShort
import Verif.Props.LintShort
import Verif.Props.LintMistakes
import Verif.Props.LintCodes
import Verif.GenMain
import Verif.Props.GenMain
