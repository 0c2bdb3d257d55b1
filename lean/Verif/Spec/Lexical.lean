import Verif.Model.Lexer
/-
Lexical structure of the source, independently of the lexer's algorithm.
-/
namespace Verif.Lexical
open Nixf

/-- White space characters. -/
def isWhite (c : UInt8) : Bool := (b!" \t\n\r").contains c || c == 11 || c == 12

/-- `Trivia t r`: the text `t`, followed by `r`, is a sequence of white space, `#` comments (up to the end of line or of
the source) and `/* */` comments (possibly unterminated at the end of the source). -/
inductive Trivia : Bytes → Bytes → Prop
  | nil (r) : Trivia [] r
  | space (c t r) : isWhite c = true → Trivia t r → Trivia (c :: t) r
  | line (body t r) : NL ∉ body → Trivia t r → Trivia (35 :: (body ++ NL :: t)) r
  | lineEof (body) : NL ∉ body → Trivia (35 :: body) []
  | block (body t r) : ¬ b!"*/" <:+: body ++ [42] → Trivia t r → Trivia (47 :: 42 :: (body ++ 42 :: 47 :: t)) r
  | blockEof (body) : ¬ b!"*/" <:+: body → Trivia (47 :: 42 :: body) []

/-- No white space or comment starts here. -/
def NoTrivia (r : Bytes) : Prop :=
  ¬ (r.head?.any isWhite = true) ∧ ¬ [35] <+: r ∧ ¬ b!"/*" <+: r

/-- Line, column and offset of the end of the text `pre`: the number of newlines in it, the number of bytes after the last
one, its length. -/
def posOf (pre : Bytes) : Cursor := ⟨pre.count NL, (pre.reverse.takeWhile (· ≠ NL)).length, pre.length⟩

/-- The cursor `c` is a correct cursor of the source `src`. -/
def At (src : Bytes) (c : Cursor) : Prop := c.offset ≤ src.length ∧ c = posOf (src.take c.offset)

/-- All cursors of a diagnostic: of its range, its notes, and the edits of its fixes. -/
def diagCursors (d : Diagnostic) : List Cursor :=
  [d.range.l, d.range.r] ++ d.notes.flatMap (fun n => [n.range.l, n.range.r]) ++
    d.fixes.flatMap (fun f => f.edits.flatMap (fun e => [e.oldRange.l, e.oldRange.r]))

/-- The text of a range of the source. -/
def slice (src : Bytes) (r : CRange) : Bytes := (src.drop r.l.offset).take (r.r.offset - r.l.offset)

/-! ### Tokens -/

def letters : Bytes := b!"abcdefghijklmnopqrstuvwxyzABCDEFGHIJKLMNOPQRSTUVWXYZ"
def digits : Bytes := b!"0123456789"
/-- Characters that can follow the first one in an identifier. -/
def identChars : Bytes := letters ++ digits ++ b!"_'-"
/-- Characters of path components. -/
def pathChars : Bytes := letters ++ digits ++ b!"._-+"
/-- Characters of URI schemes (after the first letter). -/
def schemeChars : Bytes := letters ++ digits ++ b!"+-."
/-- Characters of URIs after the colon. -/
def uriChars : Bytes := letters ++ digits ++ b!"%/?:@&=+$,-_.!~*'"

/-- The reserved words of the Nix language. -/
def reserved : List (Bytes × TK) :=
  [(b!"assert", .kw_assert), (b!"else", .kw_else), (b!"if", .kw_if), (b!"in", .kw_in), (b!"inherit", .kw_inherit),
   (b!"let", .kw_let), (b!"or", .kw_or), (b!"rec", .kw_rec), (b!"then", .kw_then), (b!"with", .kw_with)]

/-- `r` does not start with one of these characters. -/
def NotStarting (cs : Bytes) (r : Bytes) : Prop := ∀ c ∈ r.head?, c ∉ cs

/-- A path starts at `r`: a run of path characters (or `~`), a slash, and then a path character or an interpolation. -/
def PathHere (r : Bytes) : Prop :=
  ∃ w t, r = w ++ 47 :: t ∧ (w = [126] ∨ ∀ c ∈ w, c ∈ pathChars) ∧ ((∃ c ∈ t.head?, c ∈ pathChars) ∨ b!"${" <+: t)

/-- A URI starts at `r`: a scheme, a colon and at least one URI character. -/
def UriHere (r : Bytes) : Prop :=
  ∃ c w d t, r = c :: w ++ 58 :: d :: t ∧ c ∈ letters ∧ (∀ x ∈ w, x ∈ schemeChars) ∧ d ∈ uriChars

/-- A search path: `<` components separated by slashes `>`. -/
inductive SPathBody : Bytes → Prop
  | one (w) : w ≠ [] → (∀ c ∈ w, c ∈ pathChars) → SPathBody w
  | more (w b) : w ≠ [] → (∀ c ∈ w, c ∈ pathChars) → SPathBody b → SPathBody (w ++ 47 :: b)

/-- Exponent of a float: `e` or `E`, an optional sign, at least one digit. -/
def IsExponent (e : Bytes) : Prop :=
  ∃ m sg ds, e = m :: sg ++ ds ∧ (m = 69 ∨ m = 101) ∧ (sg = [] ∨ sg = [43] ∨ sg = [45]) ∧ ds ≠ [] ∧ ∀ d ∈ ds, d ∈ digits

/-- Tokens with a fixed spelling. -/
def punctuation : List (Bytes × TK) :=
  [(b!"''", .quote2), (b!"\"", .dquote), (b!"${", .dollar_curly), (b!"{", .l_curly), (b!"}", .r_curly), (b!"(", .l_paren),
   (b!")", .r_paren), (b!"[", .l_bracket), (b!"]", .r_bracket), (b!"...", .ellipsis), (b!".", .dot), (b!",", .comma),
   (b!";", .semi_colon), (b!":", .colon), (b!"@", .at_), (b!"?", .question), (b!"=", .eq), (b!"==", .op_eq),
   (b!"!=", .op_neq), (b!"!", .op_not), (b!"<", .op_lt), (b!"<=", .op_le), (b!">", .op_gt), (b!">=", .op_ge),
   (b!"&&", .op_and), (b!"||", .op_or), (b!"->", .op_impl), (b!"//", .op_update), (b!"/", .op_div), (b!"*", .op_mul),
   (b!"+", .op_add), (b!"++", .op_concat), (b!"-", .op_negate), (b!"|>", .op_pipe_into), (b!"<|", .op_pipe_from)]

/-- The four ways the parser asks for a token. -/
inductive Mode
  | expr
  | path
  | str
  | indStr
deriving DecidableEq, Repr

/-- One token in a given context. -/
def lexIn : Mode → St → Token × St
  | .expr => lex
  | .path => lexPath
  | .str => lexString
  | .indStr => lexIndString

/-- Lex a sequence of tokens, each in its context. -/
def run : List Mode → St → List Token × St
  | [], s => ([], s)
  | m :: ms, s =>
    let (t, s1) := lexIn m s
    let (ts, s2) := run ms s1
    (t :: ts, s2)

/-- `Tiles txt ts rest`: `txt` is a sequence of trivia and the texts of the tokens `ts`, followed by `rest`. -/
inductive Tiles : Bytes → List Token → Bytes → Prop
  | nil (r) : Tiles r [] r
  | cons (g t ts txt rest) : Trivia g (t.view ++ txt) → Tiles txt ts rest → Tiles (g ++ (t.view ++ txt)) (t :: ts) rest

end Verif.Lexical
