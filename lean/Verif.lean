import Verif.Base
import Verif.Model.SourceCode
import Verif.Model.Diagnostic
import Verif.Model.Draft
import Verif.Model.Server
import Verif.Spec.Text
import Verif.Lemmas.SourceCode
import Verif.Props.Text
import Verif.Spec.Client
import Verif.Lemmas.Server
import Verif.Props.Sync
import Verif.Props.Version
import Verif.Model.URI
import Verif.Lemmas.URI
import Verif.Props.URI
import Verif.Lemmas.Rpc
import Verif.Spec.JsonRpc
import Verif.Props.Rpc
import Verif.Model.Framing
import Verif.Props.Framing
import Verif.Model.Lexer
import Verif.Spec.Lexical
import Verif.Lemmas.Lexer
import Verif.Props.Lexer
import Verif.Props.Tokens
import Verif.Model.Ast
import Verif.Model.Sema
import Verif.Model.Parser
import Verif.Spec.Tree
import Verif.Spec.Strings
import Verif.Lemmas.Tree
import Verif.Lemmas.SemaAt
import Verif.Lemmas.Shape
import Verif.Lemmas.ParserInv
import Verif.Lemmas.ParserSpec
import Verif.Lemmas.StringLex
import Verif.Lemmas.ParserStrings
import Verif.Lemmas.ParserAttrs
import Verif.Lemmas.ParserExpr
import Verif.Lemmas.ParserLambda
import Verif.Lemmas.ParserTop
import Verif.Spec.Parse
import Verif.Props.Parser
import Verif.Spec.Prec
import Verif.Spec.PrecRead
import Verif.Lemmas.PrecUnique
import Verif.Lemmas.Prec
import Verif.Lemmas.PrecTable
import Verif.Props.Prec
import Verif.Model.VariableLookup
import Verif.Spec.Scope
import Verif.Lemmas.ScopeBase
import Verif.Lemmas.ScopeEnts
import Verif.Lemmas.ScopeEff
import Verif.Lemmas.ScopeMain
import Verif.Lemmas.ScopeRun
import Verif.Lemmas.Ids
import Verif.Lemmas.IdsSema
import Verif.Lemmas.IdsNode
import Verif.Lemmas.IdsParse
import Verif.Props.Scope
import Verif.Props.Builtins
import Verif.Spec.Parents
import Verif.Model.ParentMap
import Verif.Lemmas.Parents
import Verif.Props.Parents
import Verif.Spec.Descend
import Verif.Props.Descend
import Verif.Model.Rename
import Verif.Spec.Rename
import Verif.Props.Rename
import Verif.Props.Cursor
import Verif.Spec.Formals
import Verif.Props.Formals
import Verif.Spec.Attrs
import Verif.Lemmas.Attrs
import Verif.Props.Attrs
import Verif.Lemmas.StringBody
import Verif.Model.CodeActionUtils
import Verif.Props.Strings
import Verif.Model.SemanticTokens
import Verif.Model.FoldingRange
import Verif.Model.DocumentSymbol
import Verif.Model.DocumentLink
import Verif.Lemmas.Positions
import Verif.Spec.SemanticTokens
import Verif.Lemmas.Shown
import Verif.Props.SemanticTokens
import Verif.Spec.FoldingRange
import Verif.Props.FoldingRange
import Verif.Spec.DocumentLink
import Verif.Props.DocumentLink
import Verif.Spec.DocumentSymbol
import Verif.Props.DocumentSymbol
import Verif.Spec.Grammar
import Verif.Lemmas.Grammar
import Verif.Model.AttrPath
import Verif.Spec.AttrPath
import Verif.Props.AttrPath
import Verif.Model.Options
import Verif.Spec.Options
import Verif.Props.Options
import Verif.Model.Idioms
import Verif.Model.Completion
import Verif.Spec.Completion
import Verif.Lemmas.Completion
import Verif.Props.Completion
import Verif.Model.CodeAction
import Verif.Props.QuickFix
import Verif.Props.CodeAction
import Verif.Props.WithToLet
import Verif.Props.ExtractToFile
import Verif.Spec.Syntax
import Verif.Lemmas.LexSim
import Verif.Lemmas.SynFrame
import Verif.Lemmas.Reports
import Verif.Props.Reported
import Verif.Props.PrecDoc
import Verif.Lemmas.SynAt
import Verif.Lemmas.SynRules
import Verif.Lemmas.SynStr
import Verif.Lemmas.SynSound
import Verif.Lemmas.SynSimple
import Verif.Lemmas.SynExpr
import Verif.Lemmas.SynLambda
import Verif.Lemmas.SynTop
import Verif.Lemmas.Located
import Verif.Lemmas.CplRules
import Verif.Lemmas.CplStr
import Verif.Lemmas.CplSimple
import Verif.Lemmas.CplExpr
import Verif.Lemmas.CplLambda
import Verif.Lemmas.CplTop
import Verif.Props.Syntax
import Verif.Lemmas.TokMake
import Verif.Lemmas.TokPure
import Verif.Lemmas.TokSwap
import Verif.Lemmas.TokEdge
import Verif.Lemmas.GSwap
import Verif.Lemmas.Lead
import Verif.Spec.Subst
import Verif.Lemmas.Replace
import Verif.Lemmas.ReplaceInd
import Verif.Lemmas.ReplaceTop
import Verif.Lemmas.StringRewrite
import Verif.Lemmas.TokPath
import Verif.Lemmas.Parts
import Verif.Model.JsonToNix
import Verif.Spec.Json
import Verif.Props.JsonToNix
import Verif.Model.Definition
import Verif.Spec.Definition
import Verif.Props.Definition
import Verif.Props.Replace
import Verif.Props.Rewrites
import Verif.Model.Threads
import Verif.Lemmas.Threads
import Verif.Props.Threads
import Verif.Model.Format
import Verif.Props.Format
import Verif.Model.Locks
import Verif.Props.Locks
import Verif.Model.Worker
import Verif.Props.Worker
import Verif.Model.Config
import Verif.Props.Config
import Verif.Model.Protocol
import Verif.Props.Protocol
import Verif.Props.AddFormal
import Verif.Props.WithToLetText
import Verif.Props.ExtractToFileText
import Verif.Model.Tidy
import Verif.Spec.JsonText
import Verif.Props.Tidy
import Verif.Props.Parens
import Verif.Props.PackOffered
import Verif.Props.Fixes
import Verif.Props.PackText
import Verif.Props.Bindings
import Verif.Props.BindingRewrites
import Verif.Model.Descriptors
import Verif.Props.Descriptors
import Verif.Model.Session
import Verif.Props.Session
import Verif.Model.DocumentMessages
import Verif.Props.DocumentMessages
import Verif.Model.CompletionMessages
import Verif.Props.CompletionMessages
import Verif.Model.ActionMessages
import Verif.Props.ActionMessages
import Verif.Model.Replies
import Verif.Props.Replies
import Verif.Model.Initialize
import Verif.Props.Initialize
import Verif.Model.LitTest
import Verif.Props.LitTest
import Verif.Lemmas.Prefixed
import Verif.Props.InsertPrefix
import Verif.Lemmas.Filled
import Verif.Props.Messages
import Verif.Lemmas.Ascii
import Verif.Lemmas.AsciiParser
import Verif.Lemmas.AsciiScopes
import Verif.Props.AsciiSources
import Verif.Props.SearchPath
import Verif.Props.UriToken
