import Verif.Model.Diagnostic
/-
Model of libnixf/src/Parse/Lexer.cpp, Lexer.h and Token.h.

The state keeps `rem`, the part of the source from the cursor on (`remain()`), besides the cursor itself; `peek`,
`peekUnwrap`, `peekPrefix` and `eof` look at `rem`. A loop that calls `consume()` on one character at a time is modelled
by computing the number of characters it consumes and one `consume` of this many characters (`consume` itself walks
over them one by one for the line and column). `<cctype>` functions are those of the "C" locale; on bytes above 127,
where C leaves them undefined for negative `char`s, they are false.
-/
namespace Verif.Nixf

/-- `tok::TokenKind` (generated from tokens.py:17-91). -/
inductive TK
  | kw_if
  | kw_then
  | kw_else
  | kw_assert
  | kw_with
  | kw_let
  | kw_in
  | kw_rec
  | kw_inherit
  | kw_or
  | eof
  | id_
  | int
  | float
  | dquote
  | string_part
  | string_escape
  | quote2
  | path_fragment
  | spath
  | uri
  | r_curly
  | dollar_curly
  | ellipsis
  | comma
  | dot
  | semi_colon
  | eq
  | l_curly
  | l_paren
  | r_paren
  | l_bracket
  | r_bracket
  | question
  | at_
  | colon
  | unknown
  | path_end
  | op_not
  | op_impl
  | op_or
  | op_and
  | op_eq
  | op_neq
  | op_lt
  | op_gt
  | op_le
  | op_ge
  | op_update
  | op_add
  | op_negate
  | op_mul
  | op_div
  | op_concat
  | op_pipe_into
  | op_pipe_from
deriving DecidableEq, Repr, Inhabited

/-- `tok::spelling` (Tokens.h.py, from tokens.py). -/
def TK.spelling : TK → Bytes
  | .kw_if => b!"if"
  | .kw_then => b!"then"
  | .kw_else => b!"else"
  | .kw_assert => b!"assert"
  | .kw_with => b!"with"
  | .kw_let => b!"let"
  | .kw_in => b!"in"
  | .kw_rec => b!"rec"
  | .kw_inherit => b!"inherit"
  | .kw_or => b!"or"
  | .eof => b!"eof"
  | .id_ => b!"id"
  | .int => b!"int"
  | .float => b!"float"
  | .dquote => b!"\""
  | .string_part => b!"string_part"
  | .string_escape => b!"string_escape"
  | .quote2 => b!"''"
  | .path_fragment => b!"path_fragment"
  | .spath => b!"<path>"
  | .uri => b!"uri"
  | .r_curly => b!"}"
  | .dollar_curly => b!"${"
  | .ellipsis => b!"..."
  | .comma => b!","
  | .dot => b!"."
  | .semi_colon => b!";"
  | .eq => b!"="
  | .l_curly => b!"{"
  | .l_paren => b!"("
  | .r_paren => b!")"
  | .l_bracket => b!"["
  | .r_bracket => b!"]"
  | .question => b!"?"
  | .at_ => b!"@"
  | .colon => b!":"
  | .unknown => b!"unknown"
  | .path_end => b!"path_end"
  | .op_not => b!"!"
  | .op_impl => b!"->"
  | .op_or => b!"||"
  | .op_and => b!"&&"
  | .op_eq => b!"=="
  | .op_neq => b!"!="
  | .op_lt => b!"<"
  | .op_gt => b!">"
  | .op_le => b!"<="
  | .op_ge => b!">="
  | .op_update => b!"//"
  | .op_add => b!"+"
  | .op_negate => b!"-"
  | .op_mul => b!"*"
  | .op_div => b!"/"
  | .op_concat => b!"++"
  | .op_pipe_into => b!"|>"
  | .op_pipe_from => b!"<|"

/-- The keywords (`TOK_KEYWORD`, tokens.py:17-28). -/
def keywords : List (Bytes × TK) :=
  [(b!"if", .kw_if), (b!"then", .kw_then), (b!"else", .kw_else), (b!"assert", .kw_assert), (b!"with", .kw_with), (b!"let", .kw_let), (b!"in", .kw_in), (b!"rec", .kw_rec), (b!"inherit", .kw_inherit), (b!"or", .kw_or)]

/-- `std::isdigit`. -/
def isDigit (c : UInt8) : Bool := 48 ≤ c && c ≤ 57
/-- `std::isalpha`. -/
def isAlpha (c : UInt8) : Bool := (97 ≤ c && c ≤ 122) || (65 ≤ c && c ≤ 90)
/-- `std::isspace`. -/
def isSpace (c : UInt8) : Bool := c == 32 || (9 ≤ c && c ≤ 13)

/-- `isUriSchemeChar` (Lexer.cpp:13-16). -/
def isUriSchemeChar (c : UInt8) : Bool := isAlpha c || isDigit c || c == 43 || c == 45 || c == 46
/-- `isUriPathChar` (Lexer.cpp:18-24). -/
def isUriPathChar (c : UInt8) : Bool :=
  isAlpha c || isDigit c || c == 37 || c == 47 || c == 63 || c == 58 || c == 64 || c == 38 || c == 61 || c == 43 ||
    c == 36 || c == 44 || c == 45 || c == 95 || c == 46 || c == 33 || c == 126 || c == 42 || c == 39
/-- `isPathChar` (Lexer.cpp:26-30). -/
def isPathChar (c : UInt8) : Bool := isDigit c || isAlpha c || c == 46 || c == 95 || c == 45 || c == 43
/-- `isIdentifierChar` (Lexer.cpp:32-35). -/
def isIdentifierChar (c : UInt8) : Bool := isDigit c || isAlpha c || c == 95 || c == 39 || c == 45

/-- Lexer state (Lexer.h:21-25): source, rest of the source from the cursor, cursor, diagnostics (shared with the
parser) and `oob`, set when `consume` is asked to move past the end of the source (the assert at Lexer.h:28). -/
structure St where
  src : Bytes
  rem : Bytes
  cur : Cursor
  diags : List Diagnostic
  oob : Bool
deriving DecidableEq, Repr

/-- `Lexer::Lexer` (Lexer.h:122-123). -/
def St.init (src : Bytes) : St := ⟨src, src, ⟨0, 0, 0⟩, [], false⟩

/-- The update of line, column and offset for one character (Lexer.h:31-38). -/
def stepCur (c : Cursor) (ch : UInt8) : Cursor :=
  if ch = NL then ⟨c.line + 1, 0, c.offset + 1⟩ else ⟨c.line, c.column + 1, c.offset + 1⟩

/-- The loop of `consume` (Lexer.h:30-38). -/
def moveCur (bs : Bytes) (c : Cursor) : Cursor := bs.foldl stepCur c

/-- `Lexer::consume` (Lexer.h:27-39). After a failed assert the state is irrelevant. -/
def consume (n : Nat) (s : St) : St :=
  if n ≤ s.rem.length then { s with cur := moveCur (s.rem.take n) s.cur, rem := s.rem.drop n }
  else { s with cur := moveCur s.rem s.cur, rem := [], oob := true }

/-- `Lexer::setCur` (Lexer.h:126-129). -/
def setCur (c : Cursor) (s : St) : St := { s with cur := c, rem := s.src.drop c.offset }

/-- Append a diagnostic. -/
def St.emit (s : St) (d : Diagnostic) : St := { s with diags := s.diags ++ [d] }

/-- `Token` (Token.h:14-28). -/
structure Token where
  kind : TK
  range : CRange
  view : Bytes
deriving DecidableEq, Repr, Inhabited

/-- `finishToken` (Lexer.h:48-54); `start` is the state at `startToken`. -/
def finishToken (start : St) (k : TK) (s : St) : Token :=
  ⟨k, ⟨start.cur, s.cur⟩, start.rem.take (s.cur.offset - start.cur.offset)⟩

/-- `while (!eof() && P(peekUnwrap())) consume();` -/
def consumeWhile (p : UInt8 → Bool) (s : St) : St := consume (s.rem.takeWhile p).length s

/-- `peekPrefix` (Lexer.cpp:99-106). -/
def peekPrefix (p : Bytes) (s : St) : Bool := p.isPrefixOf s.rem

/-- Length of the rest of a block comment (after its opening, Lexer.cpp:122-135) and whether it is terminated. -/
def blockComment : Bytes → Nat × Bool
  | [] => (0, false)
  | c :: r =>
    if b!"*/".isPrefixOf (c :: r) then (2, true)
    else ((blockComment r).1 + 1, (blockComment r).2)

/-- Length of the rest of a line comment (after `#`, Lexer.cpp:138-143) with `consumeEOL` (Lexer.h:67). -/
def lineComment : Bytes → Nat
  | [] => 0
  | c :: r =>
    if b!"\r\n".isPrefixOf (c :: r) then 2
    else if b!"\n".isPrefixOf (c :: r) then 1
    else lineComment r + 1

/-- `consumeComments` (Lexer.cpp:117-146); `none` is `false`. -/
def consumeComments (s : St) : Option St :=
  if peekPrefix b!"/*" s then
    let s1 := consume 2 s
    let (n, closed) := blockComment s1.rem
    let s2 := consume n s1
    if closed then some s2
    else some (s2.emit
      { kind := .unterminatedBComment
        range := ⟨s2.cur, s2.cur⟩
        notes := [{ kind := .bCommentBegin, range := ⟨s.cur, s1.cur⟩ }]
        fixes := [{ message := b!"insert */", edits := [⟨⟨s2.cur, s2.cur⟩, b!"*/"⟩] }] })
  else if peekPrefix b!"#" s then
    let s1 := consume 1 s
    some (consume (lineComment s1.rem) s1)
  else none

theorem consume_rem_length (n : Nat) (s : St) : (consume n s).rem.length = s.rem.length - n := by
  unfold consume; split <;> simp; omega

theorem peekPrefix_length {p : Bytes} {s : St} (h : peekPrefix p s = true) : p.length ≤ s.rem.length :=
  (List.isPrefixOf_iff_prefix.mp h).length_le

theorem consumeComments_lt {s s' : St} (h : consumeComments s = some s') : s'.rem.length < s.rem.length := by
  unfold consumeComments at h
  split at h
  · rename_i hp
    have h1 := peekPrefix_length hp
    simp only at h
    split at h <;> cases h <;> simp only [St.emit, consume_rem_length] <;> simp at h1 <;> omega
  · split at h
    · rename_i hp
      have h1 := peekPrefix_length hp
      cases h
      simp only [consume_rem_length]; simp at h1; omega
    · cases h

/-- `consumeTrivia` (Lexer.cpp:148-156) with `consumeWhitespaces` (Lexer.cpp:108-115). -/
def consumeTrivia (s : St) : St :=
  match _hs : s.rem with
  | [] => s
  | c :: _ =>
    if _hc : isSpace c then consumeTrivia (consumeWhile isSpace s)
    else
      match _hcm : consumeComments s with
      | some s' => consumeTrivia s'
      | none => s
termination_by s.rem.length
decreasing_by
  · simp only [consumeWhile, consume_rem_length, _hs, List.takeWhile_cons, _hc]; simp; omega
  · exact consumeComments_lt _hcm

/-- The optional sign of an exponent (Lexer.cpp:157-161, part of `lexFloatExp`). -/
def expSign (s : St) : St :=
  match s.rem with
  | [] => s
  | c :: _ => if c == 43 || c == 45 then consume 1 s else s

/-- `lexFloatExp` (Lexer.cpp:158-172); its result is not used by the caller. -/
def lexFloatExp (s : St) : St :=
  match s.rem with
  | [] => s
  | e :: _ =>
    if e == 69 || e == 101 then
      let s := expSign (consume 1 s)
      let s' := consumeWhile isDigit s
      if (s.rem.takeWhile isDigit) = [] then
        s'.emit { kind := .floatNoExp, range := ⟨s'.cur, s'.cur⟩, args := [[e]] }
      else s'
    else s

/-- `lexNumbers` (Lexer.cpp:174-210), called on a digit. -/
def lexNumbers (s : St) : TK × St :=
  let s1 := consumeWhile isDigit s
  if s1.rem.head? = some 46 then
    let s2 := lexFloatExp (consumeWhile isDigit (consume 1 s1))
    let pre := s.rem.take 2
    let s2 := if b!"0".isPrefixOf pre && pre != b!"0." then
        s2.emit { kind := .floatLeadingZero, range := ⟨s.cur, s1.cur⟩, args := [pre] }
      else s2
    (.float, s2)
  else (.int, s1)

/-- The test at Lexer.cpp:229-232 and 245-250: a path character or `${` follows. -/
def pathContinues (s : St) : Bool := (s.rem.head?.any isPathChar) || peekPrefix b!"${" s

/-- `consumePathStart` (Lexer.cpp:212-256); `none` is `false` with the cursor restored. -/
def consumePathStart (s : St) : Option St :=
  if s.rem.head? = some 126 then
    let s1 := consume 1 s
    if s1.rem.head? = some 47 then
      let s2 := consume 1 s1
      if pathContinues s2 then some s2 else none
    else none
  else
    let s1 := consumeWhile isPathChar s
    if s1.rem.head? = some 47 then
      let s2 := consume 1 s1
      if pathContinues s2 then some s2 else none
    else none

/-- `consumeURI` (Lexer.cpp:258-285). -/
def consumeURI (s : St) : Option St :=
  let s1 := consumeWhile isUriSchemeChar s
  if s1.rem.head? = some 58 then
    let s2 := consume 1 s1
    if s2.rem.head?.any isUriPathChar then some (consumeWhile isUriPathChar s2) else none
  else none

/-- Number of characters consumed by the loop at Lexer.cpp:299-311. -/
def spathSegments (bs : Bytes) : Nat :=
  match bs with
  | [] => 0
  | c :: r =>
    if c = 47 then
      let k := (r.takeWhile isPathChar).length
      if k = 0 then 1 else 1 + k + spathSegments (r.drop k)
    else 0
termination_by bs.length
decreasing_by simp; omega

/-- `consumeSPath` (Lexer.cpp:287-320), called on `<`. -/
def consumeSPath (s : St) : Option St :=
  let s1 := if s.rem.head? = some 60 then consume 1 s else s
  if s1.rem.head?.any isPathChar then
    let s2 := consumeWhile isPathChar s1
    let s3 := consume (spathSegments s2.rem) s2
    if s3.rem.head? = some 62 then some (consume 1 s3) else none
  else none

/-- `lexIdentifier` (Lexer.cpp:322-327). -/
def lexIdentifier (s : St) : St := consumeWhile isIdentifierChar (consume 1 s)

/-- `maybeKW` (Lexer.cpp:329-340). -/
def maybeKW (text : Bytes) : TK := (keywords.lookup text).getD .id_

/-- The `switch` of `lex` (Lexer.cpp:526-669) as a table: the prefix consumed and the token kind, in the order of the
tests. `|||>` comes from the two consecutive `if`s at lines 560-563. -/
def opTable : List (Bytes × TK) :=
  [(b!"''", .quote2),
   (b!"++", .op_concat), (b!"+", .op_add),
   (b!"->", .op_impl), (b!"-", .op_negate),
   (b!"*", .op_mul),
   (b!"//", .op_update), (b!"/", .op_div),
   (b!"|||>", .op_pipe_into), (b!"||", .op_or), (b!"|>", .op_pipe_into),
   (b!"!=", .op_neq), (b!"!", .op_not),
   (b!"<=", .op_le), (b!"<|", .op_pipe_from), (b!"<", .op_lt),
   (b!">=", .op_ge), (b!">", .op_gt),
   (b!"&&", .op_and),
   (b!"\"", .dquote),
   (b!"}", .r_curly),
   (b!"...", .ellipsis), (b!".", .dot),
   (b!"@", .at_), (b!":", .colon), (b!"?", .question), (b!";", .semi_colon),
   (b!"==", .op_eq), (b!"=", .eq),
   (b!"{", .l_curly), (b!"(", .l_paren), (b!")", .r_paren), (b!"[", .l_bracket), (b!"]", .r_bracket), (b!",", .comma),
   (b!"${", .dollar_curly)]

/-- The `switch` and the final test of `lex` (Lexer.cpp:526-671): kind and number of characters consumed. -/
def lexOp (rem : Bytes) : TK × Nat :=
  match opTable.find? (fun p => p.1.isPrefixOf rem) with
  | some (p, k) => (k, p.length)
  | none => (.unknown, 1)

/-- `Lexer::lex` (Lexer.cpp:472-673). -/
def lex (s0 : St) : Token × St :=
  let s := consumeTrivia s0
  match s.rem with
  | [] => (finishToken s .eof s, s)
  | c :: _ =>
    match (if isPathChar c || c == 47 || c == 126 then consumePathStart s else none) with
    | some s' => (finishToken s .path_fragment s', s')
    | none =>
      match (if isAlpha c then consumeURI s else none) with
      | some s' => (finishToken s .uri s', s')
      | none =>
        if isDigit c then
          let (k, s') := lexNumbers s
          (finishToken s k s', s')
        else if isAlpha c || c == 95 then
          let s' := lexIdentifier s
          (finishToken s (maybeKW (finishToken s .id_ s').view) s', s')
        else
          match (if c == 60 then consumeSPath s else none) with
          | some s' => (finishToken s .spath s', s')
          | none =>
            let (k, n) := lexOp s.rem
            let s' := consume n s
            (finishToken s k s', s')

/-- `Lexer::lexPath` (Lexer.cpp:342-382). `$` is no path character, so the tests for `${` inside the loops
(lines 364, 375) never succeed. -/
def lexPath (s : St) : Token × St :=
  let isFrag := fun c => isPathChar c || c == 47
  match s.rem with
  | [] => (finishToken s .path_end s, s)
  | c :: _ =>
    if peekPrefix b!"${" s then
      let s' := consume 2 s
      (finishToken s .dollar_curly s', s')
    else if peekPrefix b!"~/" s then
      let s' := consumeWhile isFrag (consume 2 s)
      (finishToken s .path_fragment s', s')
    else if isFrag c then
      let s' := consumeWhile isFrag s
      (finishToken s .path_fragment s', s')
    else (finishToken s .path_end s, s)

/-- Number of characters consumed by the loop of `lexString` (Lexer.cpp:413-427). -/
def stringPart (bs : Bytes) : Nat :=
  match bs with
  | [] => 0
  | c :: r =>
    if c = 92 then 0
    else if c = 34 then 0
    else if b!"$${".isPrefixOf (c :: r) then 3 + stringPart (r.drop 2)
    else if b!"${".isPrefixOf (c :: r) then 0
    else 1 + stringPart r
termination_by bs.length
decreasing_by all_goals (simp; try omega)

/-- `Lexer::lexString` (Lexer.cpp:384-430). -/
def lexString (s : St) : Token × St :=
  match s.rem with
  | [] => (finishToken s .eof s, s)
  | c :: _ =>
    if c = 34 then
      let s' := consume 1 s
      (finishToken s .dquote s', s')
    else if c = 92 then
      let s' := consume 2 s
      (finishToken s .string_escape s', s')
    else if c = 36 ∧ peekPrefix b!"${" s then
      let s' := consume 2 s
      (finishToken s .dollar_curly s', s')
    else
      let s' := consume (stringPart s.rem) s
      (finishToken s .string_part s', s')

/-- Number of characters consumed by the loop of `lexIndString` (Lexer.cpp:457-468). -/
def indStringPart (bs : Bytes) : Nat :=
  match bs with
  | [] => 0
  | c :: r =>
    if b!"''".isPrefixOf (c :: r) then 0
    else if b!"$${".isPrefixOf (c :: r) then 3 + indStringPart (r.drop 2)
    else if b!"${".isPrefixOf (c :: r) then 0
    else 1 + indStringPart r
termination_by bs.length
decreasing_by all_goals (simp; try omega)

/-- `Lexer::lexIndString` (Lexer.cpp:432-470). -/
def lexIndString (s : St) : Token × St :=
  match s.rem with
  | [] => (finishToken s .eof s, s)
  | _ :: _ =>
    if peekPrefix b!"''" s then
      let s1 := consume 2 s
      if peekPrefix b!"$" s1 || peekPrefix b!"'" s1 then
        let s' := consume 1 s1
        (finishToken s .string_escape s', s')
      else if peekPrefix b!"\\" s1 then
        let s' := consume 1 (consume 1 s1)
        (finishToken s .string_escape s', s')
      else (finishToken s .quote2 s1, s1)
    else if peekPrefix b!"${" s then
      let s' := consume 2 s
      (finishToken s .dollar_curly s', s')
    else
      let s' := consume (indStringPart s.rem) s
      (finishToken s .string_part s', s')

end Verif.Nixf
