import Verif.Base
/-
Diagnostic kinds, notes and message formatting.
Models libnixf/src/Basic/diagnostic.py:17-273 (the table), the generated `sname`, `severity`, `message`, `parseKind`
(libnixf/src/Basic/Diagnostic.cpp.py:10-104), libnixf/include/nixf/Basic/NoteKinds.inc,
libnixf/src/Basic/Diagnostic.cpp:9-53 and libnixf/include/nixf/Basic/{Range,Diagnostic}.h.
-/
namespace Verif.Nixf

/-- `nixf::Position` (Range.h:8-31). -/
structure Pos where
  line : Int
  column : Int
deriving DecidableEq, Repr

/-- `operator<` (Range.h:23-26). -/
def Pos.lt (a b : Pos) : Bool := decide (a.line < b.line) || (decide (a.line = b.line) && decide (a.column < b.column))
/-- `operator<=` (Range.h:28-30). -/
def Pos.le (a b : Pos) : Bool := a.lt b || decide (a = b)

/-- `nixf::PositionRange` (Range.h:33-50). -/
structure PosRange where
  b : Pos
  e : Pos
deriving DecidableEq, Repr

/-- `PositionRange::contains` (Range.h:47-49). -/
def PosRange.contains (r p : PosRange) : Bool := r.b.le p.b && p.e.le r.e

/-- `LexerCursor` (Range.h:57-103). -/
structure Cursor where
  line : Nat
  column : Nat
  offset : Nat
deriving DecidableEq, Repr, Inhabited

/-- `LexerCursor::position` (Range.h:99). -/
def Cursor.position (c : Cursor) : Pos := ⟨c.line, c.column⟩

/-- `LexerCursorRange` (Range.h:105-126). -/
structure CRange where
  l : Cursor
  r : Cursor
deriving DecidableEq, Repr, Inhabited

/-- `LexerCursorRange::range` (Range.h:123-125). -/
def CRange.range (x : CRange) : PosRange := ⟨x.l.position, x.r.position⟩

/-- `Diagnostic::DiagnosticKind` (generated from diagnostic.py:17-273). -/
inductive DK
  | unterminatedBComment
  | floatNoExp
  | floatLeadingZero
  | expected
  | intTooBig
  | redundantParen
  | attrPathExtraDot
  | selectExtraDot
  | unexpectedBetween
  | unexpectedText
  | missingSepFormals
  | lambdaArgExtraAt
  | operatorNotAssociative
  | keywordOrIsNotBinaryOp
  | letDynamic
  | emptyInherit
  | orIdentifier
  | deprecatedURL
  | deprecatedLet
  | letAttrsMissingBody
  | pathTrailingSlash
  | mergeDiffRec
  | duplicatedAttrName
  | dynamicInherit
  | emptyFormal
  | formalMissingComma
  | formalExtraEllipsis
  | formalMisplacedEllipsis
  | duplicatedFormal
  | duplicatedFormalToArg
  | undefinedVariable
  | unusedDefLet
  | unusedDefLambdaNoArg_Formal
  | unusedDefLambdaWithArg_Formal
  | unusedDefLambdaWithArg_Arg
  | extraRecursive
  | extraWith
  | primOpUnknown
  | primOpRemovablePrefix
  | primOpNeedsPrefix
  | primOpOverridden
  | constantOverridden
deriving DecidableEq, Repr

/-- All kinds, in the order of diagnostic.py. -/
def DK.all : List DK := [.unterminatedBComment, .floatNoExp, .floatLeadingZero, .expected, .intTooBig, .redundantParen, .attrPathExtraDot, .selectExtraDot, .unexpectedBetween, .unexpectedText, .missingSepFormals, .lambdaArgExtraAt, .operatorNotAssociative, .keywordOrIsNotBinaryOp, .letDynamic, .emptyInherit, .orIdentifier, .deprecatedURL, .deprecatedLet, .letAttrsMissingBody, .pathTrailingSlash, .mergeDiffRec, .duplicatedAttrName, .dynamicInherit, .emptyFormal, .formalMissingComma, .formalExtraEllipsis, .formalMisplacedEllipsis, .duplicatedFormal, .duplicatedFormalToArg, .undefinedVariable, .unusedDefLet, .unusedDefLambdaNoArg_Formal, .unusedDefLambdaWithArg_Formal, .unusedDefLambdaWithArg_Arg, .extraRecursive, .extraWith, .primOpUnknown, .primOpRemovablePrefix, .primOpNeedsPrefix, .primOpOverridden, .constantOverridden]

/-- `Diagnostic::sname` (Diagnostic.cpp.py:83-104). -/
def DK.sname : DK → Bytes
  | .unterminatedBComment => b!"lex-unterminated-bcomment"
  | .floatNoExp => b!"lex-float-no-exp"
  | .floatLeadingZero => b!"lex-float-leading-zero"
  | .expected => b!"parse-expected"
  | .intTooBig => b!"parse-int-too-big"
  | .redundantParen => b!"parse-redundant-paren"
  | .attrPathExtraDot => b!"parse-attrpath-extra-dot"
  | .selectExtraDot => b!"parse-select-extra-dot"
  | .unexpectedBetween => b!"parse-unexpected-between"
  | .unexpectedText => b!"parse-unexpected"
  | .missingSepFormals => b!"parse-missing-sep-formals"
  | .lambdaArgExtraAt => b!"parse-lambda-arg-extra-at"
  | .operatorNotAssociative => b!"parse-operator-noassoc"
  | .keywordOrIsNotBinaryOp => b!"parse-kw-or-isnot-binary-op"
  | .letDynamic => b!"let-dynamic"
  | .emptyInherit => b!"empty-inherit"
  | .orIdentifier => b!"or-identifier"
  | .deprecatedURL => b!"deprecated-url-literal"
  | .deprecatedLet => b!"deprecated-let"
  | .letAttrsMissingBody => b!"deprecated-let-missing-body"
  | .pathTrailingSlash => b!"path-trailing-slash"
  | .mergeDiffRec => b!"merge-diff-rec"
  | .duplicatedAttrName => b!"sema-duplicated-attrname"
  | .dynamicInherit => b!"sema-dynamic-inherit"
  | .emptyFormal => b!"sema-empty-formal"
  | .formalMissingComma => b!"sema-formal-missing-comma"
  | .formalExtraEllipsis => b!"sema-formal-extra-ellipsis"
  | .formalMisplacedEllipsis => b!"sema-misplaced-ellipsis"
  | .duplicatedFormal => b!"sema-dup-formal"
  | .duplicatedFormalToArg => b!"sema-dup-formal-arg"
  | .undefinedVariable => b!"sema-undefined-variable"
  | .unusedDefLet => b!"sema-unused-def-let"
  | .unusedDefLambdaNoArg_Formal => b!"sema-unused-def-lambda-noarg-formal"
  | .unusedDefLambdaWithArg_Formal => b!"sema-unused-def-lambda-witharg-formal"
  | .unusedDefLambdaWithArg_Arg => b!"sema-unused-def-lambda-witharg-arg"
  | .extraRecursive => b!"sema-extra-rec"
  | .extraWith => b!"sema-extra-with"
  | .primOpUnknown => b!"sema-primop-unknown"
  | .primOpRemovablePrefix => b!"sema-primop-removed-prefix"
  | .primOpNeedsPrefix => b!"sema-primop-needs-prefix"
  | .primOpOverridden => b!"sema-primop-overridden"
  | .constantOverridden => b!"sema-constant-overridden"

/-- Diagnostic::Severity (Diagnostic.h:154-168). -/
inductive Severity
  | fatal | error | warning | info | hint
deriving DecidableEq, Repr

/-- `Diagnostic::severity` (Diagnostic.cpp.py:59-80). -/
def DK.severity : DK → Severity
  | .unterminatedBComment => .error
  | .floatNoExp => .fatal
  | .floatLeadingZero => .warning
  | .expected => .error
  | .intTooBig => .error
  | .redundantParen => .warning
  | .attrPathExtraDot => .error
  | .selectExtraDot => .error
  | .unexpectedBetween => .error
  | .unexpectedText => .error
  | .missingSepFormals => .error
  | .lambdaArgExtraAt => .error
  | .operatorNotAssociative => .error
  | .keywordOrIsNotBinaryOp => .error
  | .letDynamic => .error
  | .emptyInherit => .warning
  | .orIdentifier => .warning
  | .deprecatedURL => .warning
  | .deprecatedLet => .warning
  | .letAttrsMissingBody => .error
  | .pathTrailingSlash => .fatal
  | .mergeDiffRec => .warning
  | .duplicatedAttrName => .error
  | .dynamicInherit => .error
  | .emptyFormal => .error
  | .formalMissingComma => .error
  | .formalExtraEllipsis => .error
  | .formalMisplacedEllipsis => .error
  | .duplicatedFormal => .error
  | .duplicatedFormalToArg => .error
  | .undefinedVariable => .error
  | .unusedDefLet => .warning
  | .unusedDefLambdaNoArg_Formal => .warning
  | .unusedDefLambdaWithArg_Formal => .hint
  | .unusedDefLambdaWithArg_Arg => .warning
  | .extraRecursive => .warning
  | .extraWith => .warning
  | .primOpUnknown => .error
  | .primOpRemovablePrefix => .warning
  | .primOpNeedsPrefix => .error
  | .primOpOverridden => .warning
  | .constantOverridden => .warning

/-- `Diagnostic::message` (Diagnostic.cpp.py:35-56). -/
def DK.message : DK → Bytes
  | .unterminatedBComment => b!"unterminated /* comment"
  | .floatNoExp => b!"float point has trailing `{}` but has no exponential part"
  | .floatLeadingZero => b!"float begins with extra zeros `{}` is nixf extension"
  | .expected => b!"expected {}"
  | .intTooBig => b!"this integer is too big for nix interpreter"
  | .redundantParen => b!"redundant parentheses"
  | .attrPathExtraDot => b!"extra `.` at the end of attrpath"
  | .selectExtraDot => b!"extra `.` after expression, but missing attrpath"
  | .unexpectedBetween => b!"unexpected {} between {} and {}"
  | .unexpectedText => b!"unexpected text"
  | .missingSepFormals => b!"missing seperator `,` between two lambda formals"
  | .lambdaArgExtraAt => b!"extra `@` for lambda arg"
  | .operatorNotAssociative => b!"operator is non-associative"
  | .keywordOrIsNotBinaryOp => b!"'or' keyword is not a binary operator"
  | .letDynamic => b!"dynamic attributes are not allowed in let ... in ... expression"
  | .emptyInherit => b!"empty inherit expression"
  | .orIdentifier => b!"keyword `or` used as an identifier"
  | .deprecatedURL => b!"URL literal is deprecated"
  | .deprecatedLet => b!"using deprecated `let' syntactic sugar `let {{..., body = ...}}' -> (rec {{..., body = ...}}).body'"
  | .letAttrsMissingBody => b!"`let {{ ... }}` expression requires a `body` attribute"
  | .pathTrailingSlash => b!"path has a trailing slash"
  | .mergeDiffRec => b!"merging two attributes with different `rec` modifiers, the latter will be implicitly ignored"
  | .duplicatedAttrName => b!"duplicated attrname `{}`"
  | .dynamicInherit => b!"dynamic attributes are not allowed in inherit"
  | .emptyFormal => b!"empty formal"
  | .formalMissingComma => b!"missing `,` for lambda formal"
  | .formalExtraEllipsis => b!"extra `...` for lambda formal"
  | .formalMisplacedEllipsis => b!"misplaced `...` for lambda formal"
  | .duplicatedFormal => b!"duplicated function formal"
  | .duplicatedFormalToArg => b!"function argument duplicated to a function formal"
  | .undefinedVariable => b!"undefined variable `{}`"
  | .unusedDefLet => b!"definition `{}` in let-expression is not used"
  | .unusedDefLambdaNoArg_Formal => b!"attribute `{}` of argument is not used"
  | .unusedDefLambdaWithArg_Formal => b!"attribute `{}` of `@`-pattern argument is not used, but may be referenced from the argument"
  | .unusedDefLambdaWithArg_Arg => b!"argument `{}` in `@`-pattern is not used"
  | .extraRecursive => b!"attrset is not necessary to be `rec`ursive"
  | .extraWith => b!"unused `with` expression"
  | .primOpUnknown => b!"unknown builtin `{}`"
  | .primOpRemovablePrefix => b!"this is a prelude builtin, the `builtins.` prefix can be removed"
  | .primOpNeedsPrefix => b!"this is not a prelude builtin, the `builtins.` prefix is required"
  | .primOpOverridden => b!"overriding a builtin name `{}` is discouraged, rename it to avoid confusion"
  | .constantOverridden => b!"overriding a builtin name `{}` is discouraged, rename it to avoid confusion"

/-- `Diagnostic::parseKind` (Diagnostic.cpp.py:10-32): lookup in the table built from all kinds. -/
def parseKind (s : Bytes) : Option DK := DK.all.find? (fun k => k.sname == s)

/-- Result of a formatting step: `ub` is a read of `Args` past its end. -/
inductive Fmt
  | ok (s : Bytes)
  | ub
deriving DecidableEq, Repr

/-- `simpleFormat` (Diagnostic.cpp:9-23); the format is a NUL-terminated string, so `*(Cur+1)` is always
readable. -/
def simpleFormat : Bytes → List Bytes → Fmt
  | [], _ => .ok []
  | 123 :: 125 :: rest, args =>
    match args with
    | [] => .ub
    | a :: args =>
      match simpleFormat rest args with
      | .ok r => .ok (a ++ r)
      | .ub => .ub
  | c :: rest, args =>
    match simpleFormat rest args with
    | .ok r => .ok (c :: r)
    | .ub => .ub

/-- `Note::NoteKind` (NoteKinds.inc). -/
inductive NK
  | prevDeclared
  | duplicateFormal
  | thisRecursive
  | recConsider
  | bCommentBegin
  | toMachThis
deriving DecidableEq, Repr

/-- `Note::sname` (Diagnostic.cpp:27-37). -/
def NK.sname : NK → Bytes
  | .prevDeclared => b!"note-prev"
  | .duplicateFormal => b!"note-duplicate-formal"
  | .thisRecursive => b!"merge-diff-rec-this-rec"
  | .recConsider => b!"merge-diff-rec-consider"
  | .bCommentBegin => b!"note-bcomment-begin"
  | .toMachThis => b!"to-match-this"

/-- `Note::message` (Diagnostic.cpp:39-49). -/
def NK.message : NK → Bytes
  | .prevDeclared => b!"previously declared here"
  | .duplicateFormal => b!"duplicated to this formal"
  | .thisRecursive => b!"this attribute set is {}recursive"
  | .recConsider => b!"while this attribute set is marked as {}recursive, it will be considered as {}recursive"
  | .bCommentBegin => b!"/* comment begins at here"
  | .toMachThis => b!"to match this {}"

/-- `DiagnosticTag` (Diagnostic.h:74-77). -/
inductive Tag
  | faded | striked
deriving DecidableEq, Repr

/-- `nixf::Note` (Diagnostic.h:79-143). -/
structure Note where
  kind : NK
  range : CRange
  args : List Bytes := []
  tags : List Tag := []
deriving DecidableEq, Repr

/-- `nixf::TextEdit` (Diagnostic.h:25-55). -/
structure TextEdit where
  oldRange : CRange
  newText : Bytes
deriving DecidableEq, Repr

/-- `nixf::Fix` (Diagnostic.h:57-72). -/
structure Fix where
  message : Bytes
  edits : List TextEdit := []
deriving DecidableEq, Repr

/-- `nixf::Diagnostic` (Diagnostic.h:147-214). -/
structure Diagnostic where
  kind : DK
  range : CRange
  args : List Bytes := []
  notes : List Note := []
  fixes : List Fix := []
  tags : List Tag := []
deriving DecidableEq, Repr

/-- `PartialDiagnostic::format` (Diagnostic.cpp:51-53). -/
def Diagnostic.format (d : Diagnostic) : Fmt := simpleFormat d.kind.message d.args
/-- `PartialDiagnostic::format` on a note. -/
def Note.format (n : Note) : Fmt := simpleFormat n.kind.message n.args

end Verif.Nixf
