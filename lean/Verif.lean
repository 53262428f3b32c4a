import Verif.Basic
import Verif.Tokenizer.Model
import Verif.Tokenizer.Lemmas
import Verif.Tokenizer.Spec
import Verif.Tokenizer.Kinds
import Verif.Tokenizer.RunLemmas
import Verif.Props.Tokenizer
import Verif.Parse.Escapes
import Verif.Parse.Lexer
import Verif.Parse.PathState
import Verif.Parse.Parser
import Verif.Parse.Events
import Verif.Format.Scalar
import Verif.Parse.EscapeSpec
import Verif.Parse.EscapeLemmas
import Verif.Parse.LexLemmas
import Verif.Parse.HeredocSpec
import Verif.Parse.HeredocLemmas
import Verif.Parse.Relation
import Verif.Parse.LexInv
import Verif.Props.Scalars
import Verif.Parse.AtomInv
import Verif.Parse.EscOffsets
import Verif.Parse.EventInv
import Verif.Props.Events
import Verif.Parse.NestSpec
import Verif.Parse.NestLemmas
import Verif.Props.Nesting
import Verif.Parse.DupSpec
import Verif.Parse.DupLemmas
import Verif.Props.Keys
import Verif.Parse.PathSpec
import Verif.Parse.PathLemmas
import Verif.Parse.RootKeys
import Verif.Props.Paths
import Verif.Tree.Value
import Verif.Tree.Builder
import Verif.Tree.TreeSpec
import Verif.Tree.BuilderLemmas
import Verif.Tree.PathSpec
import Verif.Tree.ValueLemmas
import Verif.Props.Tree
import Verif.Text.Fuel
import Verif.Text.Grammar
import Verif.Text.Lex
import Verif.Text.Parse
import Verif.Text.Root
import Verif.Props.Text
import Verif.Text.BracedSpec
import Verif.Text.Braced
import Verif.Props.Braced
import Verif.Format.Writer
import Verif.Format.ValueFormat
import Verif.Format.PrintSpec
import Verif.Format.PrintLemmas
import Verif.Format.Print
import Verif.Format.WriterSpec
import Verif.Format.WriterLemmas
import Verif.Props.Format
import Verif.Cst.Parser
import Verif.Cst.Spec
import Verif.Cst.Lemmas
import Verif.Cst.Fuel
import Verif.Cst.Ast
import Verif.Cst.Format
import Verif.Cst.InkSpec
import Verif.Cst.Shape
import Verif.Cst.Ink
import Verif.Props.Cst
import Verif.Props.CstFormat
import Verif.Schema.Suggest
import Verif.Schema.EditSpec
import Verif.Schema.EditLemmas
import Verif.Schema.Model
import Verif.Schema.Spec
import Verif.Schema.Lemmas
import Verif.Schema.Conform
import Verif.Schema.TermSpec
import Verif.Schema.Term
import Verif.Schema.OrderSpec
import Verif.Schema.Order
import Verif.Schema.TableSpec
import Verif.Schema.Table
import Verif.Schema.ReportSpec
import Verif.Schema.Report
import Verif.Schema.MarkSpec
import Verif.Schema.Mark
import Verif.Props.Schema
import Verif.Embed.Model
import Verif.Embed.Spec
import Verif.Embed.Lemmas
import Verif.Props.Embed
import Verif.Lsp.Model
import Verif.Lsp.Spec
import Verif.Lsp.Lemmas
import Verif.Lsp.Tokens
import Verif.Lsp.TokenSpec
import Verif.Lsp.TokenLemmas
import Verif.Props.Lsp
import Verif.Cli.Model
import Verif.Cli.Spec
import Verif.Cli.Lemmas
import Verif.Props.Cli
import Verif.Cst.Toks
import Verif.Cst.Kids
import Verif.Cst.Denote
import Verif.Cst.Read
import Verif.Cst.ReadEntry
import Verif.Cst.ReadAll
import Verif.Cst.ReadValue
import Verif.Cst.FormatSpec
import Verif.Cst.Relayout
import Verif.Cst.RelayoutValue
import Verif.Cst.Neat
import Verif.Cst.Lines
import Verif.Cst.LinesRead
import Verif.Cst.LinesPrint
import Verif.Cst.Same
import Verif.Cst.SameRead
import Verif.Cst.SameNode
import Verif.Cst.AgainSpec
import Verif.Cst.AgainNode
import Verif.Cst.Again
import Verif.Cst.AgainBraced
import Verif.Props.Relayout
import Verif.Cst.Braced
import Verif.Cst.BracedSound
import Verif.Props.BracedFormat
import Verif.Props.BracedMarks
import Verif.Props.Again
import Verif.Props.AgainBraced
import Verif.Cst.Check
import Verif.Cst.CheckSpec
import Verif.Cst.CheckLemmas
import Verif.Cst.CheckText
import Verif.Cst.CheckBraced
import Verif.Props.Check
import Verif.Props.CheckBraced
import Verif.Serde.Model
import Verif.Serde.Spec
import Verif.Serde.Write
import Verif.Serde.Safe
import Verif.Serde.Read
import Verif.Serde.Skip
import Verif.Props.Serde
import Verif.Facet.Model
import Verif.Facet.Spec
import Verif.Facet.Lemmas
import Verif.Facet.Read
import Verif.Facet.Docs
import Verif.Facet.Total
import Verif.Facet.Ops
import Verif.Props.Facet
import Verif.Json.Model
import Verif.Json.Spec
import Verif.Json.Lemmas
import Verif.Props.Json
import Verif.FacetSer.Model
import Verif.FacetSer.Spec
import Verif.FacetSer.Lemmas
import Verif.Text.Expr
import Verif.Props.Expr
import Verif.Props.FacetSer
import Verif.Ffi.Model
import Verif.Ffi.Spec
import Verif.Ffi.Read
import Verif.Ffi.Path
import Verif.Ffi.History
import Verif.Ffi.Trace
import Verif.Props.Ffi
import Verif.Tree.SpanAtoms
import Verif.Tree.SpanBuild
import Verif.Tree.SpanRun
import Verif.Tree.SpanSpec
import Verif.Tree.SpanLemmas
import Verif.Props.Spans
import Verif.Lsp.Cursor
import Verif.Lsp.CursorSpec
import Verif.Lsp.CursorLemmas
import Verif.Props.Cursor
import Verif.Lsp.Context
import Verif.Lsp.ContextSpec
import Verif.Lsp.ContextLemmas
import Verif.Props.Context
import Verif.Lsp.Store
import Verif.Lsp.StoreSpec
import Verif.Lsp.StoreLemmas
import Verif.Props.Store
import Verif.Lsp.Locks
import Verif.Lsp.LocksLemmas
import Verif.Props.Locks
import Verif.Lsp.Extensions
import Verif.Props.Extensions
import Verif.Lsp.Config
import Verif.Props.Config
import Verif.Lsp.Symbols
import Verif.Lsp.SymbolSpec
import Verif.Props.Symbols
import Verif.Lsp.Navigate
import Verif.Lsp.Fill
import Verif.Lsp.FillSpec
import Verif.Lsp.FillLemmas
import Verif.Props.Fill
import Verif.Lsp.NavigateSpec
import Verif.Props.Navigate
import Verif.Props.Placeholder
import Verif.Lsp.Complete
import Verif.Props.Complete
import Verif.Schema.PlaceSpec
import Verif.Schema.Place
import Verif.Lsp.Diagnose
import Verif.Props.Place
import Verif.Cst.Sound
import Verif.Lsp.Marks
import Verif.Props.Marks
import Verif.Gen.Go
import Verif.Gen.GoSpec
import Verif.Gen.GoLemmas
import Verif.Gen.GoText
import Verif.Gen.GoDecl
import Verif.Gen.GoRun
import Verif.Props.Go
import Verif.Gen.TypeModel
import Verif.Gen.TypeSpec
import Verif.Gen.TypeFields
import Verif.Gen.TypeAccept
import Verif.Gen.TypeLoose
import Verif.Gen.TypeQueue
import Verif.Gen.TypeRefs
import Verif.Props.Types
import Verif.Lsp.Declare
import Verif.Lsp.DeclareSpec
import Verif.Props.Actions
import Verif.Lsp.OnType
import Verif.Lsp.OnTypeSpec
import Verif.Lsp.OnTypeLemmas
import Verif.Props.OnType
import Verif.Tokenizer.LineSpec
import Verif.Tokenizer.Local
import Verif.Cst.Cuts
import Verif.Props.Lines
import Verif.Impl.Lexer
import Verif.Impl.Parser
import Verif.Impl.Total
import Verif.Impl.Terminate
import Verif.Impl.Preserve
import Verif.Impl.NoBrace
import Verif.Impl.Mono
import Verif.Impl.ReadEntries
import Verif.Impl.ReadValue
import Verif.Impl.Read
import Verif.Impl.Lex
import Verif.Impl.Shared
import Verif.Impl.Spec
import Verif.Props.Implementations
import Verif.Impl.ReadPaths
import Verif.Impl.ReadRoot
import Verif.Props.Agreement
import Verif.Impl.PathsExact
import Verif.Impl.StrayBrace
import Verif.Editor.Scanner
import Verif.Editor.Safe
import Verif.Editor.Within
import Verif.Editor.Spec
import Verif.Editor.History
import Verif.Editor.Rule
import Verif.Editor.Raw
import Verif.Editor.RawAgree
import Verif.Props.EditorScan
import Verif.Editor.Heredoc
import Verif.Editor.HeredocAgree
import Verif.Editor.Tags
import Verif.Props.EditorAgree
import Verif.Lsp.Hover
import Verif.Lsp.HoverSpec
import Verif.Lsp.HoverLemmas
import Verif.Lsp.HoverFollow
import Verif.Lsp.GotoLemmas
import Verif.Props.Hover
import Verif.Cli.Files
import Verif.Cli.FilesSpec
import Verif.Cli.FilesLemmas
import Verif.Cli.PathLemmas
import Verif.Props.Files
import Verif.Lsp.Cache
import Verif.Lsp.CacheSpec
import Verif.Props.Cache
import Verif.Embed.Macros
import Verif.Embed.LiteralSpec
import Verif.Props.Macros
import Verif.Cli.Sexp
import Verif.Cli.SexpSpec
import Verif.Cli.SexpLemmas
import Verif.Impl.Sexp
import Verif.Impl.SexpLemmas
import Verif.Props.Sexp
import Verif.Format.SameValue
import Verif.Impl.Typed
import Verif.Impl.TypedSpec
import Verif.Impl.TypedLemmas
import Verif.Props.Typed
import Verif.Swift.Lexer
import Verif.Swift.Parser
import Verif.Swift.Mono
import Verif.Swift.Terminate
import Verif.Swift.Hang
import Verif.Props.Swift
import Verif.Swift.Spec
import Verif.Swift.Embed
import Verif.Swift.Lex
import Verif.Swift.ReadValue
import Verif.Swift.ReadEntries
import Verif.Swift.ReadPaths
import Verif.Swift.ReadRoot
import Verif.Props.SwiftAgreement
import Verif.Impl.BracedSpec
import Verif.Impl.ReadBraced
import Verif.Swift.ReadBraced
import Verif.Props.BracedAgreement
import Verif.Editor.CodeMirror
import Verif.Editor.CodeMirrorAgree
import Verif.Editor.CodeMirrorNested
import Verif.Props.CodeMirror
import Verif.Impl.Malformed
import Verif.Parse.Malformed
import Verif.Swift.Malformed
import Verif.Props.Malformed
import Verif.Cli.Report
import Verif.Props.Report
import Verif.Editor.Monaco
import Verif.Editor.MonacoSpec
import Verif.Editor.MonacoPaint
import Verif.Editor.MonacoStep
import Verif.Editor.MonacoAtom
import Verif.Editor.MonacoLines
import Verif.Editor.MonacoDoc
import Verif.Editor.MonacoOrder
import Verif.Props.Monaco
import Verif.Lsp.Protocol
import Verif.Lsp.ProtocolSpec
import Verif.Lsp.ProtocolLemmas
import Verif.Props.Protocol
import Verif.Lsp.Hints
import Verif.Lsp.HintsSpec
import Verif.Props.Hints
import Verif.Lsp.Load
import Verif.Lsp.LoadSpec
import Verif.Props.Load
import Verif.Cli.Publish
import Verif.Cli.PublishSpec
import Verif.Props.Publish
import Verif.Cst.View
import Verif.Cst.ViewSpec
import Verif.Cst.ViewLemmas
import Verif.Props.View
import Verif.Lsp.Harness
import Verif.Lsp.HarnessSpec
import Verif.Lsp.HarnessLemmas
import Verif.Props.Harness
import Verif.Lsp.Runner
import Verif.Lsp.RunnerSpec
import Verif.Lsp.RunnerLemmas
import Verif.Props.Runner
import Verif.Tree.Modify
import Verif.Tree.ModifySpec
import Verif.Tree.ModifyLemmas
import Verif.Props.Modify
import Verif.Lsp.Host
import Verif.Lsp.HostSpec
import Verif.Props.Host
import Verif.Cli.Package
import Verif.Cli.PackageSpec
import Verif.Cli.PackageLemmas
import Verif.Props.Package
import Verif.Lsp.SchemaLink
import Verif.Lsp.SchemaLinkSpec
import Verif.Lsp.SchemaLinkLemmas
import Verif.Props.SchemaLink
import Verif.Lsp.RunnerChecks
import Verif.Lsp.RunnerChecksSpec
import Verif.Props.RunnerChecks
import Verif.Tree.TagNames
import Verif.Cli.DebugTree
import Verif.Cli.DebugTreeSpec
import Verif.Cli.DebugTreeLemmas
import Verif.Props.DebugTree
import Verif.Testing.Annotated
import Verif.Testing.AnnotatedSpec
import Verif.Testing.AnnotatedLemmas
import Verif.Props.Annotated
import Verif.Editor.Emacs
import Verif.Editor.EmacsSpec
import Verif.Editor.EmacsLemmas
import Verif.Props.Emacs
import Verif.Lsp.SourceFields
import Verif.Lsp.SourceFieldsSpec
import Verif.Lsp.SourceFieldsLemmas
import Verif.Props.SourceFields
import Verif.Editor.Fold
import Verif.Editor.FoldSpec
import Verif.Editor.FoldLemmas
import Verif.Props.Fold
import Verif.Cli.ValidationReport
import Verif.Props.ValidationReport
import Verif.Lsp.CommentTokens
import Verif.Props.CommentTokens
