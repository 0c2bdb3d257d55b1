import Verif.Model.Sema
/-
The parser. Models libnixf/src/Parse/Parser.h, ParseSupport.cpp, ParseStrings.cpp, ParseSimple.cpp, ParseAttrs.cpp,
ParseLambda.cpp, ParseOp.cpp and ParseExpr.cpp.

A parser function is a state transformer that may run out of fuel (`none`): loops take a number of iterations, and
recursive calls of `parseExpr` and `parseExprSelect` go through `Rec`, which is built from itself a given number of
times. `Props/Parser.lean` proves that the fuel given by `parse` is always enough.

`bad` is set when an `assert` of the C++ code fails or an empty `LastToken` is dereferenced; the model then goes on as
the code compiled without asserts does. Asserts that repeat the condition under which the only callers make the call
(the kind of the first token) and `assert(LastToken)` directly after `consume()` are left out.
-/
namespace Verif.Nixf

/-- `Parser::ParserState` (Parser.h:33-38). -/
inductive PS
  | expr
  | string
  | indString
  | path
deriving DecidableEq, Repr, Inhabited

/-- State of the parser (Parser.h:40-60). The diagnostics are in `lex`. `states` and `sync` have the last pushed element
first. `eaten` are all tokens consumed so far, the last one first; the code only keeps this one (`LastToken`). -/
structure PState where
  lex : St
  buf : List Token
  eaten : List Token
  states : List PS
  sync : List TK
  next : Nat
  bad : Bool
deriving DecidableEq, Repr

/-- A parser. -/
def PM (α : Type) := PState → Option (α × PState)

namespace PM

def pure' {α : Type} (a : α) : PM α := fun s => some (a, s)
def bind' {α β : Type} (m : PM α) (f : α → PM β) : PM β := fun s =>
  match m s with
  | some (a, s') => f a s'
  | none => none

instance : Monad PM where
  pure := pure'
  bind := bind'

/-- Out of fuel. -/
def fail {α : Type} : PM α := fun _ => none

/-- A state update. -/
def modify (f : PState → PState) : PM Unit := fun s => some ((), f s)

/-- A function of the state. -/
def get {α : Type} (f : PState → α) : PM α := fun s => some (f s, s)

end PM

/-- The lexer function of a state (the `switch` of `peek`, ParseSupport.cpp:65-78). -/
def lexPS : PS → St → Token × St
  | .expr => lex
  | .string => lexString
  | .indString => lexIndString
  | .path => lexPath

/-- One iteration of the loop of `peek` (ParseSupport.cpp:64-79). -/
def pullOne (s : PState) : PState :=
  let (t, l) := lexPS (s.states.headD .expr) s.lex
  { s with lex := l, buf := s.buf ++ [t] }

/-- Several iterations. -/
def pull : Nat → PState → PState
  | 0, s => s
  | n + 1, s => pull n (pullOne s)

/-- `Parser::peek` (ParseSupport.cpp:63-81). -/
def peek (n : Nat := 0) : PM Token := fun s =>
  let s' := pull (n + 1 - s.buf.length) s
  some (s'.buf.getD n default, s')

/-- The kind of a token ahead. -/
def peekKind (n : Nat := 0) : PM TK := do
  let t ← peek n
  pure t.kind

/-- `Parser::consume` with `popBuf` (Parser.h:124-134). -/
def pconsume : PM Unit := fun s =>
  let s' := if s.buf.isEmpty then pull 1 s else s
  match s'.buf with
  | [] => some ((), s')
  | t :: ts => some ((), { s' with buf := ts, eaten := t :: s'.eaten })

/-- `Parser::lCur` (Parser.h:147). -/
def lCurP : PM Cursor := do
  let t ← peek
  pure t.range.l

/-- `LastToken->rCur()`. -/
def lastR : PM Cursor := fun s =>
  match s.eaten.head? with
  | some t => some (t.range.r, s)
  | none => some (default, { s with bad := true })

/-- `Diags.emplace_back`. -/
def emitD (d : Diagnostic) : PM Unit := .modify fun s => { s with lex := s.lex.emit d }

/-- `D.note(...) << text` on the diagnostic added last. -/
def noteLast (n : Note) : PM Unit :=
  .modify fun s =>
    { s with lex := { s.lex with diags := s.lex.diags.dropLast ++ (s.lex.diags.getLast?.map fun d => { d with notes := d.notes ++ [n] }).toList } }

/-- `D.fix(...).edit(...)` on the diagnostic added last. -/
def fixLast (f : Fix) : PM Unit :=
  .modify fun s =>
    { s with lex := { s.lex with diags := s.lex.diags.dropLast ++ (s.lex.diags.getLast?.map fun d => { d with fixes := d.fixes ++ [f] }).toList } }

/-- A failed `assert`. -/
def assertFail : PM Unit := .modify fun s => { s with bad := true }

/-- `assert(LastToken)`. -/
def assertLast : PM Unit := .modify fun s => { s with bad := s.bad || s.eaten.isEmpty }

/-- The identity of a new node. -/
def fresh (r : CRange) : PM Hd := fun s => some (⟨s.next, r⟩, { s with next := s.next + 1 })

/-- Call a semantic action. -/
def sema {α : Type} (f : Bytes → SemaSt → α × SemaSt) : PM α := fun s =>
  let (a, t) := f s.lex.src ⟨s.next, s.lex.diags, s.bad⟩
  some (a, { s with lex := { s.lex with diags := t.diags }, next := t.next, bad := t.bad })

/-- `std::make_shared<Misc>(Range)`. -/
def mkMisc (r : CRange) : PM Node := do
  let h ← fresh r
  pure (.misc h)

/-- An empty range (LexerCursorRange(Pos), Range.h:114). -/
def CRange.at_ (c : Cursor) : CRange := ⟨c, c⟩

/-- `TextEdit::mkInsertion`, `TextEdit::mkRemoval` (Diagnostic.h:35-41). -/
def TextEdit.mkInsertion (c : Cursor) (t : Bytes) : TextEdit := ⟨⟨c, c⟩, t⟩
def TextEdit.mkRemoval (r : CRange) : TextEdit := ⟨r, []⟩

/-- `diagNullExpr` (ParseSupport.cpp:11-18). -/
def diagNullExpr (loc : Cursor) (as : Bytes) : PM Unit :=
  emitD { kind := .expected, range := .at_ loc, args := [as ++ b!" expression"],
          fixes := [{ message := b!"insert dummy expression", edits := [.mkInsertion loc b!" expr"] }] }

/-- A statement under a condition. -/
def whenP (c : Prop) [Decidable c] (m : PM Unit) : PM Unit := if c then m else pure ()

/-- `if (!Expr) diagNullExpr(Diags, LastToken->rCur(), As)`. -/
def needExpr (e : Node) (as : Bytes) : PM Unit :=
  whenP e.isNull do
    let c ← lastR
    diagNullExpr c as

/-- `resetLookAheadBuf` (ParseSupport.cpp:53-61). -/
def resetBuf (s : PState) : PState :=
  match s.buf with
  | [] => s
  | t :: _ => { s with lex := setCur t.range.l s.lex, buf := [] }

/-- `withState` (ParseSupport.cpp:20-33, Parser.h:62-71): the state is pushed before and popped after. -/
def withState {α : Type} (st : PS) (m : PM α) : PM α := do
  .modify fun s => let s := resetBuf s; { s with states := st :: s.states }
  let a ← m
  .modify fun s => let s := resetBuf s; { s with states := s.states.tail }
  pure a

/-- `withSync` (ParseSupport.cpp:35, Parser.h:88-99): the token is added before and one copy erased after. -/
def withSync {α : Type} (k : TK) (m : PM α) : PM α := do
  .modify fun s => { s with sync := k :: s.sync }
  let a ← m
  .modify fun s => { s with sync := s.sync.erase k }
  pure a

/-- The loop of `consumeAsUnknown` (ParseSupport.cpp:86-91); the result is `Consumed`. -/
def unknownLoop : Nat → PM Bool
  | 0 => .fail
  | k + 1 => do
    let t ← peek
    let sync ← .get (·.sync)
    if t.kind = .eof ∨ t.kind ∈ sync then pure false
    else do
      pconsume
      let _ ← unknownLoop k
      pure true

/-- `consumeAsUnknown` (ParseSupport.cpp:83-96). -/
def consumeAsUnknown (k : Nat) : PM (Option CRange) := do
  let t ← peek
  let consumed ← unknownLoop k
  if consumed then do
    let r ← lastR
    pure (some ⟨t.range.l, r⟩)
  else pure none

/-- `removeUnexpected` (Parser.h:136-145). -/
def removeUnexpected (k : Nat) : PM Bool := do
  match ← consumeAsUnknown k with
  | some r =>
    emitD { kind := .unexpectedText, range := r, tags := [.striked],
            fixes := [{ message := b!"remove unexpected text", edits := [.mkRemoval r] }] }
    pure true
  | none => pure false

/-- The cursor where `expect` suggests an insertion (ParseSupport.cpp:113). -/
def insertCur : PM Cursor := do
  match ← .get (·.eaten.head?) with
  | some t => pure t.range.r
  | none => lCurP

/-- `peek()` again, if text was removed (ParseSupport.cpp:105-106). -/
def rePeek (removed : Bool) (t : Token) : PM Token := if removed then peek else pure t

/-- `expect` (ParseSupport.cpp:98-120); `none` is a failure, the diagnostic is the one added last. -/
def expect (k : Nat) (kind : TK) : PM (Option Token) :=
  withSync kind do
    let t ← peek
    if t.kind = kind then pure (some t)
    else do
      let removed ← removeUnexpected k
      let t ← rePeek removed t
      if removed ∧ t.kind = kind then pure (some t)
      else do
        let c ← insertCur
        emitD { kind := .expected, range := .at_ c, args := [kind.spelling],
                fixes := [{ message := b!"insert " ++ kind.spelling, edits := [.mkInsertion c kind.spelling] }] }
        pure none

/-- The recursive calls. -/
structure Rec where
  expr : PM Node
  select : PM Node

/-- `ER.diag().note(NK_ToMachThis, Range) << text`. -/
def noteMatch (r : CRange) (text : Bytes) : PM Unit := noteLast { kind := .toMachThis, range := r, args := [text] }

/-- `if (ExpectResult ER = expect(Kind); ER.ok()) consume(); else ER.diag().note(NK_ToMachThis, Range) << text;` -/
def expectOr (k : Nat) (kind : TK) (r : CRange) (text : Bytes) : PM (Option Token) := do
  match ← expect k kind with
  | some t => do
    pconsume
    pure (some t)
  | none => do
    noteMatch r text
    pure none

/-- `if (ExpectResult ER = expect(Kind); ER.ok()) consume();` -/
def expectMay (k : Nat) (kind : TK) : PM Unit := do
  match ← expect k kind with
  | some _ => pconsume
  | none => pure ()

/-! ### ParseStrings.cpp -/

/-- `parseInterpolation` (ParseStrings.cpp:6-27). -/
def parseInterpolation (R : Rec) (k : Nat) : PM Node := do
  let tok ← peek
  pconsume
  withSync .r_curly do
    withState .expr do
      let e ← R.expr
      needExpr e b!"interpolation"
      let _ ← expectOr k .r_curly tok.range (TK.spelling .dollar_curly)
      let c ← lastR
      let h ← fresh ⟨tok.range.l, c⟩
      pure (.interpolation h e)

/-- The loop of `parseExprPath` (ParseStrings.cpp:36-50): fragments and `End`. -/
def pathLoop (R : Rec) (k : Nat) : Nat → PM (List Node × Cursor)
  | 0 => .fail
  | j + 1 => do
    let cur ← peek
    pconsume
    let next ← peek
    if next.kind = .path_end then pure ([.text cur.view], cur.range.r)
    else if next.kind = .dollar_curly then do
      let i ← parseInterpolation R k
      let (fs, e) ← pathLoop R k j
      pure (.text cur.view :: i :: fs, e)
    else do
      assertFail
      let (fs, e) ← pathLoop R k j
      pure (.text cur.view :: fs, e)

/-- `std::make_shared<InterpolatedParts>` (Nodes.cpp:53-56). -/
def mkParts (r : CRange) (fs : List Node) : PM Node := do
  let h ← fresh r
  pure (.parts h (mergeFragments fs))

/-- `parseExprPath` (ParseStrings.cpp:29-56). -/
def parseExprPath (R : Rec) (k : Nat) : PM Node := do
  let b ← peek
  let (fs, e) ← withState .path (pathLoop R k k)
  let parts ← mkParts ⟨b.range.l, e⟩ fs
  let h ← fresh ⟨b.range.l, e⟩
  pure (.exprPath h parts)

/-- The text of an escape sequence (ParseStrings.cpp:77-98). -/
def unescape (v : Bytes) : Bytes :=
  match v with
  | _ :: c :: _ => if c = 110 then [10] else if c = 114 then [13] else if c = 116 then [9] else [c]
  | _ => []

/-- The loop of `parseStringParts` (ParseStrings.cpp:61-108). -/
def partsLoop (R : Rec) (k : Nat) : Nat → PM (List Node)
  | 0 => .fail
  | j + 1 => do
    let tok ← peek
    match tok.kind with
    | .dollar_curly => do
      let i ← parseInterpolation R k
      let fs ← partsLoop R k j
      pure (i :: fs)
    | .string_part => do
      pconsume
      let fs ← partsLoop R k j
      pure (.text tok.view :: fs)
    | .string_escape => do
      pconsume
      let fs ← partsLoop R k j
      pure (if unescape tok.view = [] then fs else .text (unescape tok.view) :: fs)
    | _ => pure []

/-- `parseStringParts` (ParseStrings.cpp:58-109). -/
def parseStringParts (R : Rec) (k : Nat) : PM Node := do
  let b ← peek
  let fs ← partsLoop R k k
  let c ← lastR
  mkParts ⟨b.range.l, c⟩ fs

/-- `parseString` (ParseStrings.cpp:111-134). -/
def parseString (R : Rec) (k : Nat) (isIndented : Bool) : PM Node := do
  let quote ← peek
  let quoteKind := if isIndented then TK.quote2 else TK.dquote
  pconsume
  withSync quoteKind do
    withState (if isIndented then .indString else .string) do
      let parts ← parseStringParts R k
      match ← expect k quoteKind with
      | some t => do
        pconsume
        let h ← fresh ⟨quote.range.l, t.range.r⟩
        pure (.exprString h parts)
      | none => do
        noteMatch quote.range quoteKind.spelling
        let h ← fresh ⟨quote.range.l, parts.rCur⟩
        pure (.exprString h parts)

/-! ### ParseAttrs.cpp -/

/-- `parseAttrName` (ParseAttrs.cpp:6-28). -/
def parseAttrName (R : Rec) (k : Nat) : PM Node := do
  let tok ← peek
  match tok.kind with
  | .kw_or => do
    emitD { kind := .orIdentifier, range := tok.range }
    pconsume
    let h ← fresh tok.range
    let h' ← fresh tok.range
    pure (.attrNameID h' (.identifier h tok.view))
  | .id_ => do
    pconsume
    let h ← fresh tok.range
    let h' ← fresh tok.range
    pure (.attrNameID h' (.identifier h tok.view))
  | .dquote => do
    let s ← parseString R k false
    let h ← fresh s.range
    pure (.attrNameString h s)
  | .dollar_curly => do
    let i ← parseInterpolation R k
    let h ← fresh i.range
    pure (.attrNameInterp h i)
  | _ => pure .null

/-- The loop of `parseAttrPath` (ParseAttrs.cpp:42-67): the following names and the dots; `prev` is `PrevName`. -/
def attrPathLoop (R : Rec) (k : Nat) : Nat → Nat → PM (List Node × List Node)
  | 0, _ => .fail
  | j + 1, prev => do
    let tok ← peek
    if tok.kind = .dot then do
      pconsume
      let next ← parseAttrName R k
      let h ← fresh tok.range
      if next.isNull then do
        emitD { kind := .attrPathExtraDot, range := tok.range,
                fixes := [{ message := b!"remove extra .", edits := [.mkRemoval tok.range] },
                  { message := b!"insert dummy attrname", edits := [.mkInsertion tok.range.r b!"\"dummy\""] }] }
        let (ns, ds) ← attrPathLoop R k j prev
        pure (ns, .dot h prev none :: ds)
      else do
        let (ns, ds) ← attrPathLoop R k j next.id
        pure (next :: ns, .dot h prev (some next.id) :: ds)
    else pure ([], [])

/-- `parseAttrPath` (ParseAttrs.cpp:30-70). -/
def parseAttrPath (R : Rec) (k : Nat) : PM Node := do
  let first ← parseAttrName R k
  if first.isNull then pure .null
  else
    withSync .dot do
      let (ns, ds) ← attrPathLoop R k k first.id
      let c ← lastR
      let h ← fresh ⟨first.lCur, c⟩
      pure (.attrPath h (first :: ns) ds)

/-- The check for `;` in `parseBinding` (ParseAttrs.cpp:89-99). -/
def bindingSemi : PM Unit := do
  let tok ← peek
  if tok.kind = .semi_colon then pconsume
  else do
    let c ← lastR
    emitD { kind := .expected, range := .at_ c, args := [TK.spelling .semi_colon],
            fixes := [{ message := b!"insert ;", edits := [.mkInsertion c b!";"] }] }

/-- `parseBinding` (ParseAttrs.cpp:72-103). -/
def parseBinding (R : Rec) (k : Nat) : PM Node := do
  let path ← parseAttrPath R k
  if path.isNull then pure .null
  else
    withSync .eq do
      withSync .semi_colon do
        match ← expect k .eq with
        | none => do
          let c ← lastR
          let h ← fresh ⟨path.lCur, c⟩
          pure (.binding h path .null .null)
        | some t => do
          pconsume
          let eq ← mkMisc t.range
          let e ← R.expr
          needExpr e b!"binding"
          bindingSemi
          let c ← lastR
          let h ← fresh ⟨path.lCur, c⟩
          pure (.binding h path eq e)

/-- The loop over the names of `parseInherit` (ParseAttrs.cpp:131-137). -/
def inheritNames (R : Rec) (k : Nat) : Nat → PM (List Node)
  | 0 => .fail
  | j + 1 => do
    let n ← parseAttrName R k
    if n.isNull then pure []
    else do
      let ns ← inheritNames R k j
      pure (n :: ns)

/-- The optional `(expr)` of `parseInherit` (ParseAttrs.cpp:119-130). -/
def inheritExpr (R : Rec) (k : Nat) : PM Node := do
  let tok ← peek
  if tok.kind = .l_paren then do
    pconsume
    let e ← R.expr
    needExpr e b!"inherit"
    let _ ← expectOr k .r_paren tok.range (TK.spelling .l_paren)
    pure e
  else pure .null

/-- The diagnostic for an empty `inherit` (ParseAttrs.cpp:145-156). -/
def emptyInheritDiag (tok : Token) (semi : Option Token) : Diagnostic :=
  { kind := .emptyInherit, range := tok.range, tags := [.faded],
    fixes := [{ message := b!"remove `inherit` keyword",
                edits := .mkRemoval tok.range :: (semi.map fun t => TextEdit.mkRemoval t.range).toList }] }

/-- `parseInherit` (ParseAttrs.cpp:105-160). -/
def parseInherit (R : Rec) (k : Nat) : PM Node := do
  let tok ← peek
  if tok.kind ≠ .kw_inherit then pure .null
  else do
    pconsume
    withSync .semi_colon do
      withSync .id_ do
        withSync .dquote do
          withSync .dollar_curly do
            let e ← inheritExpr R k
            let names ← inheritNames R k k
            let er ← expectOr k .semi_colon tok.range (TK.spelling .kw_inherit)
            whenP names.isEmpty (emitD (emptyInheritDiag tok er))
            let c ← lastR
            let h ← fresh ⟨tok.range.l, c⟩
            pure (.inherit h names e)

/-- The loop of `parseBinds` (ParseAttrs.cpp:173-187). -/
def bindsLoop (R : Rec) (k : Nat) : Nat → PM (List Node)
  | 0 => .fail
  | j + 1 => do
    let b ← parseBinding R k
    if b.isNull then do
      let i ← parseInherit R k
      if i.isNull then do
        let removed ← removeUnexpected k
        if removed then bindsLoop R k j else pure []
      else do
        let bs ← bindsLoop R k j
        pure (i :: bs)
    else do
      let bs ← bindsLoop R k j
      pure (b :: bs)

/-- `parseBinds` (ParseAttrs.cpp:162-193). -/
def parseBinds (R : Rec) (k : Nat) : PM Node := do
  let b ← peek
  withSync .id_ do
    withSync .dquote do
      withSync .dollar_curly do
        withSync .kw_inherit do
          let bs ← bindsLoop R k k
          if bs.isEmpty then pure .null
          else do
            let c ← lastR
            let h ← fresh ⟨b.range.l, c⟩
            pure (.binds h bs)

/-- The optional `rec` of `parseExprAttrs` (ParseAttrs.cpp:204-207). -/
def recTok : PM Node := do
  let t ← peek
  if t.kind = .kw_rec then do
    pconsume
    mkMisc t.range
  else pure .null

/-- The `{` of `parseExprAttrs` (ParseAttrs.cpp:208-211): `Matcher`. -/
def attrsOpen (k : Nat) (b : Token) : PM Token := do
  match ← expect k .l_curly with
  | some t => do
    pconsume
    pure t
  | none => pure b

/-- `parseExprAttrs` (ParseAttrs.cpp:195-221). -/
def parseExprAttrs (R : Rec) (k : Nat) : PM Node :=
  withSync .r_curly do
    let b ← peek
    let rec_ ← recTok
    let matcher ← attrsOpen k b
    assertLast
    let binds ← parseBinds R k
    let _ ← expectOr k .r_curly matcher.range matcher.kind.spelling
    let c ← lastR
    sema fun _ => onExprAttrs ⟨b.range.l, c⟩ binds rec_

/-! ### ParseSimple.cpp -/

/-- The diagnostic for redundant parentheses (ParseSimple.cpp:53-60 and 67-73). -/
def redundantParenDiag (l : CRange) (r : Option CRange) : Diagnostic :=
  { kind := .redundantParen, range := l, tags := [.faded],
    fixes := [match r with
      | some r => { message := b!"remove ( and )", edits := [.mkRemoval l, .mkRemoval r] }
      | none => { message := b!"remove (", edits := [.mkRemoval l] }] }

/-- `parseExprParen` (ParseSimple.cpp:40-79). -/
def parseExprParen (R : Rec) (k : Nat) : PM Node := do
  let l ← peek
  let lparen ← mkMisc l.range
  pconsume
  withSync .r_paren do
    let e ← R.expr
    needExpr e b!"parenthesized"
    match ← expect k .r_paren with
    | some t => do
      pconsume
      let rparen ← mkMisc t.range
      whenP e.mayProducedBySimple (emitD (redundantParenDiag l.range (some t.range)))
      let h ← fresh ⟨l.range.l, t.range.r⟩
      pure (.exprParen h e lparen rparen)
    | none => do
      noteMatch l.range (TK.spelling .l_paren)
      whenP e.mayProducedBySimple (emitD (redundantParenDiag l.range none))
      let c ← lastR
      let h ← fresh ⟨l.range.l, c⟩
      pure (.exprParen h e lparen .null)

/-- The loop of `parseExprList` (ParseSimple.cpp:90-97). -/
def listLoop (R : Rec) : Nat → PM (List Node)
  | 0 => .fail
  | j + 1 => do
    let t ← peek
    if t.kind = .r_bracket then pure []
    else do
      let e ← R.select
      if e.isNull then pure []
      else do
        let es ← listLoop R j
        pure (e :: es)

/-- `parseExprList` (ParseSimple.cpp:81-105). -/
def parseExprList (R : Rec) (k : Nat) : PM Node := do
  let tok ← peek
  if tok.kind ≠ .l_bracket then pure .null
  else do
    pconsume
    withSync .r_bracket do
      let es ← listLoop R k
      let _ ← expectOr k .r_bracket tok.range (TK.spelling .l_bracket)
      let c ← lastR
      let h ← fresh ⟨tok.range.l, c⟩
      pure (.exprList h es)

/-- `std::from_chars` on decimal digits into an `int64_t` (ParseSimple.cpp:137-144): `none` is out of range. -/
def decodeInt (v : Bytes) : Option Int :=
  let n : Nat := v.foldl (fun (a : Nat) (c : UInt8) => a * 10 + (c.toNat - 48)) 0
  if n < 2 ^ 63 then some (Int.ofNat n) else none

/-- `parseExprSimple` (ParseSimple.cpp:107-174). -/
def parseExprSimple (R : Rec) (k : Nat) : PM Node := do
  let tok ← peek
  match tok.kind with
  | .uri => do
    pconsume
    let parts ← mkParts tok.range [.text tok.view]
    let h ← fresh tok.range
    emitD { kind := .deprecatedURL, range := tok.range,
            fixes := [{ message := b!"convert it to string",
                        edits := [.mkInsertion tok.range.l b!"\"", .mkInsertion tok.range.r b!"\""] }] }
    pure (.exprString h parts)
  | .id_ => do
    pconsume
    let h ← fresh tok.range
    let h' ← fresh tok.range
    pure (.exprVar h' (.identifier h tok.view))
  | .int => do
    pconsume
    whenP (decodeInt tok.view = none) (emitD { kind := .intTooBig, range := tok.range })
    let h ← fresh tok.range
    pure (.exprInt h ((decodeInt tok.view).getD 0))
  | .float => do
    pconsume
    let h ← fresh tok.range
    pure (.exprFloat h tok.view)
  | .spath => do
    pconsume
    let h ← fresh tok.range
    pure (.exprSPath h ((tok.view.drop 1).take (tok.view.length - 2)))
  | .dquote => parseString R k false
  | .quote2 => parseString R k true
  | .path_fragment => parseExprPath R k
  | .l_paren => parseExprParen R k
  | .kw_rec => parseExprAttrs R k
  | .l_curly => parseExprAttrs R k
  | .l_bracket => parseExprList R k
  | _ => pure .null

/-! ### ParseExpr.cpp -/

/-- `parseExprSelect` (ParseExpr.cpp:6-53). -/
def parseExprSelect (R : Rec) (k : Nat) : PM Node := do
  let e ← parseExprSimple R k
  if e.isNull then pure .null
  else do
    let tok ← peek
    if tok.kind ≠ .dot then pure e
    else do
      let hd ← fresh tok.range
      pconsume
      let path ← parseAttrPath R k
      whenP path.isNull <|
        emitD { kind := .selectExtraDot, range := tok.range,
                fixes := [{ message := b!"remove extra .", edits := [.mkRemoval tok.range] },
                  { message := b!"insert dummy attrpath", edits := [.mkInsertion tok.range.r b!"\"dummy\""] }] }
      let tokOr ← peek
      if tokOr.kind ≠ .kw_or then do
        let c ← lastR
        let h ← fresh ⟨e.lCur, c⟩
        pure (.exprSelect h e (.dot hd e.id none) path .null false)
      else do
        pconsume
        let default ← R.select
        whenP default.isNull do
          let c ← lastR
          diagNullExpr c b!"default"
          fixLast { message := b!"remove `or` keyword", edits := [.mkRemoval tokOr.range] }
        let c ← lastR
        let h ← fresh ⟨e.lCur, c⟩
        pure (.exprSelect h e (.dot hd e.id none) path default false)

/-- The loop of `parseExprApp` (ParseExpr.cpp:61-67). `Limit` is `INT_MAX` in all calls and is not modelled. -/
def appLoop (R : Rec) (k : Nat) : Nat → PM (List Node)
  | 0 => .fail
  | j + 1 => do
    let a ← parseExprSelect R k
    if a.isNull then pure []
    else do
      let as ← appLoop R k j
      pure (a :: as)

/-- `parseExprApp` (ParseExpr.cpp:55-74). -/
def parseExprApp (R : Rec) (k : Nat) : PM Node := do
  let fn ← parseExprSelect R k
  if fn.isNull ∨ fn.maybeLambda = false then pure fn
  else do
    let args ← appLoop R k k
    match args.getLast? with
    | none => pure fn
    | some l => do
      let h ← fresh ⟨fn.lCur, l.rCur⟩
      pure (.exprCall h fn args)

/-! ### ParseOp.cpp -/

/-- `getBP` (ParseOp.cpp:33-68). `none` is `__builtin_unreachable()`. -/
def getBP : TK → Option (Nat × Nat)
  | .op_pipe_from => some (1, 2)
  | .op_pipe_into => some (2, 1)
  | .op_impl => some (4, 3)
  | .op_or => some (5, 6)
  | .op_and => some (7, 8)
  | .op_eq => some (9, 9)
  | .op_neq => some (9, 9)
  | .op_lt => some (10, 10)
  | .op_le => some (10, 10)
  | .op_ge => some (10, 10)
  | .op_gt => some (10, 10)
  | .op_update => some (12, 11)
  | .op_add => some (14, 15)
  | .op_negate => some (14, 15)
  | .op_mul => some (16, 17)
  | .op_div => some (19, 18)
  | .op_concat => some (19, 18)
  | _ => none

/-- `getUnaryBP` (ParseOp.cpp:70-79). -/
def getUnaryBP : TK → Nat
  | .op_not => 11
  | _ => 100

mutual
/-- `parseExprOpBP` (ParseOp.cpp:83-106), up to its loop. -/
def parseExprOpBP (R : Rec) (k : Nat) : Nat → Nat → PM Node
  | 0, _ => .fail
  | j + 1, leftRBP => do
    let tok ← peek
    if tok.kind = .op_not ∨ tok.kind = .op_negate then do
      pconsume
      let ho ← fresh tok.range
      let e ← parseExprOpBP R k j (getUnaryBP tok.kind)
      needExpr e (b!"unary operator " ++ tok.kind.spelling)
      let c ← lastR
      let h ← fresh ⟨tok.range.l, c⟩
      opLoop R k j leftRBP (.exprUnaryOp h (.op ho tok.kind) e)
    else do
      let pre ← parseExprApp R k
      if pre.isNull then pure .null else opLoop R k j leftRBP pre

/-- The loop of `parseExprOpBP` (ParseOp.cpp:108-178); `TOK_BIN_OP` are the operators of tokens.py:72-91, those with a
binding power. -/
def opLoop (R : Rec) (k : Nat) : Nat → Nat → Node → PM Node
  | 0, _, _ => .fail
  | j + 1, leftRBP, pre => do
    let tok ← peek
    match getBP tok.kind with
    | some (lbp, rbp) =>
      if leftRBP > lbp then pure pre
      else do
        whenP (leftRBP = lbp) (emitD { kind := .operatorNotAssociative, range := tok.range })
        pconsume
        let ho ← fresh tok.range
        let rhs ← parseExprOpBP R k j rbp
        if rhs.isNull then do
          let c ← lastR
          diagNullExpr c b!"binary op RHS"
          opLoop R k j leftRBP pre
        else do
          let h ← fresh ⟨pre.lCur, rhs.rCur⟩
          opLoop R k j leftRBP (.exprBinOp h (.op ho tok.kind) pre rhs)
    | none =>
      if tok.kind = .question then do
        pconsume
        let ho ← fresh tok.range
        let path ← parseAttrPath R k
        let c ← lastR
        let h ← fresh ⟨pre.lCur, c⟩
        opLoop R k j leftRBP (.exprOpHasAttr h (.op ho tok.kind) pre path)
      else if tok.kind = .kw_or then do
        emitD { kind := .keywordOrIsNotBinaryOp, range := tok.range,
                fixes := [{ message := b!"replace 'or' with '||'", edits := [⟨tok.range, b!"||"⟩] }] }
        pconsume
        let ho ← fresh tok.range
        let rhs ← parseExprOpBP R k j 6
        if rhs.isNull then do
          let c ← lastR
          diagNullExpr c b!"RHS of 'or'"
          opLoop R k j leftRBP pre
        else do
          let h ← fresh ⟨pre.lCur, rhs.rCur⟩
          opLoop R k j leftRBP (.exprBinOp h (.op ho tok.kind) pre rhs)
      else pure pre
end

/-! ### ParseLambda.cpp -/

/-- The optional `,` of `parseFormal` (ParseLambda.cpp:13-17). -/
def formalCommaTok : PM Node := do
  let t ← peek
  if t.kind = .comma then do
    pconsume
    mkMisc t.range
  else pure .null

/-- `parseFormal` (ParseLambda.cpp:6-48). -/
def parseFormal (R : Rec) : PM Node := do
  let l ← lCurP
  let comma ← formalCommaTok
  let tok ← peek
  if tok.kind = .id_ then do
    pconsume
    let hi ← fresh tok.range
    let q ← peek
    if q.kind ≠ .question then do
      let c ← lastR
      let h ← fresh ⟨l, c⟩
      pure (.formal h comma (.identifier hi tok.view) .null .null)
    else do
      pconsume
      let d ← R.expr
      needExpr d b!"default value"
      let c ← lastR
      let h ← fresh ⟨l, c⟩
      pure (.formal h comma (.identifier hi tok.view) d .null)
  else if tok.kind = .ellipsis then do
    pconsume
    let e ← mkMisc tok.range
    let c ← lastR
    let h ← fresh ⟨l, c⟩
    pure (.formal h comma .null .null e)
  else if comma.isNull then pure .null
  else do
    let c ← lastR
    let h ← fresh ⟨l, c⟩
    pure (.formal h comma .null .null .null)

/-- The loop of `parseFormals` (ParseLambda.cpp:63-74). -/
def formalsLoop (R : Rec) (k : Nat) : Nat → PM (List Node)
  | 0 => .fail
  | j + 1 => do
    let t ← peek
    if t.kind = .r_curly then pure []
    else do
      let f ← parseFormal R
      if f.isNull then do
        let removed ← removeUnexpected k
        if removed then formalsLoop R k j else pure []
      else do
        let fs ← formalsLoop R k j
        pure (f :: fs)

/-- `parseFormals` (ParseLambda.cpp:50-82). -/
def parseFormals (R : Rec) (k : Nat) : PM Node := do
  match ← expect k .l_curly with
  | none => pure .null
  | some t => do
    pconsume
    withSync .r_curly do
      withSync .comma do
        withSync .question do
          withSync .id_ do
            let ms ← formalsLoop R k k
            let _ ← expectOr k .r_curly t.range (TK.spelling .l_curly)
            let c ← lastR
            sema fun src => onFormals src ⟨t.range.l, c⟩ ms

/-- `parseLambdaArg` (ParseLambda.cpp:84-130). -/
def parseLambdaArg (R : Rec) (k : Nat) : PM Node := do
  let l ← lCurP
  let tok ← peek
  if tok.kind = .id_ then do
    pconsume
    let hi ← fresh tok.range
    let a ← peek
    if a.kind ≠ .at_ then do
      let c ← lastR
      sema fun _ => onLambdaArg ⟨l, c⟩ (.identifier hi tok.view) .null
    else do
      pconsume
      let fs ← parseFormals R k
      whenP fs.isNull <|
        emitD { kind := .lambdaArgExtraAt, range := tok.range,
                fixes := [{ message := b!"remove extra @", edits := [.mkRemoval tok.range] },
                  { message := b!"insert dummy formals", edits := [.mkInsertion tok.range.r b!"{}"] }] }
      let c ← lastR
      sema fun _ => onLambdaArg ⟨l, c⟩ (.identifier hi tok.view) fs
  else do
    let fs ← parseFormals R k
    if fs.isNull then pure .null
    else do
      let a ← peek
      if a.kind ≠ .at_ then do
        let c ← lastR
        sema fun _ => onLambdaArg ⟨l, c⟩ .null fs
      else do
        pconsume
        match ← expect k .id_ with
        | none => do
          noteMatch a.range (TK.spelling .at_)
          let c ← lastR
          sema fun _ => onLambdaArg ⟨l, c⟩ .null fs
        | some t => do
          pconsume
          let hi ← fresh t.range
          let c ← lastR
          sema fun _ => onLambdaArg ⟨l, c⟩ (.identifier hi t.view) fs

/-- `parseExprLambda` (ParseLambda.cpp:132-147). -/
def parseExprLambda (R : Rec) (k : Nat) : PM Node := do
  let l ← lCurP
  let arg ← parseLambdaArg R k
  assertLast
  if arg.isNull then pure .null
  else do
    expectMay k .colon
    let body ← R.expr
    needExpr body b!"lambda body"
    let c ← lastR
    let h ← fresh ⟨l, c⟩
    pure (.exprLambda h arg body)

/-! ### ParseExpr.cpp, keywords -/

/-- `std::make_shared<ExprIf>` with the range up to the last token. -/
def mkIf (l : Cursor) (c t e : Node) : PM Node := do
  let r ← lastR
  let h ← fresh ⟨l, r⟩
  pure (.exprIf h c t e)

/-- The end of `parseExprIf` (ParseExpr.cpp:193-210), after `then`. -/
def parseElse (R : Rec) (k : Nat) (tokIf : Token) (cond then_ : Node) : PM Node := do
  match ← expect k .kw_else with
  | none => mkIf tokIf.range.l cond then_ .null
  | some _ => do
    pconsume
    let e ← R.expr
    whenP e.isNull do
      let c ← lastR
      diagNullExpr c b!"else"
      noteMatch tokIf.range (TK.spelling .kw_if)
    mkIf tokIf.range.l cond then_ e

/-- The middle of `parseExprIf` (ParseExpr.cpp:169-191), after the condition. -/
def parseThen (R : Rec) (k : Nat) (tokIf : Token) (cond : Node) : PM Node := do
  match ← expect k .kw_then with
  | none => do
    noteMatch tokIf.range (TK.spelling .kw_if)
    mkIf tokIf.range.l cond .null .null
  | some _ => do
    pconsume
    let t ← R.expr
    if t.isNull then do
      let c ← lastR
      diagNullExpr c b!"then"
      noteMatch tokIf.range (TK.spelling .kw_if)
      let n ← peek
      if n.kind ≠ .kw_else then mkIf tokIf.range.l cond .null .null
      else parseElse R k tokIf cond t
    else parseElse R k tokIf cond t

/-- `parseExprIf` (ParseExpr.cpp:146-211). -/
def parseExprIf (R : Rec) (k : Nat) : PM Node := do
  let tokIf ← peek
  pconsume
  withSync .kw_then do
    withSync .kw_else do
      let cond ← R.expr
      if cond.isNull then do
        let c ← lastR
        diagNullExpr c b!"condition"
        fixLast { message := b!"remove `if` keyword", edits := [.mkRemoval tokIf.range] }
        fixLast { message := b!"insert dummy condition", edits := [.mkInsertion tokIf.range.r b!"true"] }
        let n ← peek
        if n.kind ≠ .kw_then then mkIf tokIf.range.l .null .null .null
        else parseThen R k tokIf cond
      else parseThen R k tokIf cond

/-- `std::make_shared<ExprAssert>` with the range up to the last token. -/
def mkAssert (l : Cursor) (c v : Node) : PM Node := do
  let r ← lastR
  let h ← fresh ⟨l, r⟩
  pure (.exprAssert h c v)

/-- The end of `parseExprAssert` (ParseExpr.cpp:234-253). -/
def parseAssertValue (R : Rec) (k : Nat) (tok : Token) (cond : Node) : PM Node := do
  match ← expect k .semi_colon with
  | none => do
    noteMatch tok.range (TK.spelling .kw_assert)
    mkAssert tok.range.l cond .null
  | some _ => do
    pconsume
    let v ← R.expr
    needExpr v b!"assert value"
    mkAssert tok.range.l cond v

/-- `parseExprAssert` (ParseExpr.cpp:213-254). -/
def parseExprAssert (R : Rec) (k : Nat) : PM Node := do
  let tok ← peek
  pconsume
  withSync .semi_colon do
    let cond ← R.expr
    if cond.isNull then do
      let c ← lastR
      diagNullExpr c b!"condition"
      fixLast { message := b!"remove `assert` keyword", edits := [.mkRemoval tok.range] }
      let n ← peek
      if n.kind ≠ .colon then mkAssert tok.range.l .null .null
      else parseAssertValue R k tok cond
    else parseAssertValue R k tok cond

/-- The set of bindings of `parseExprLet` (ParseExpr.cpp:271). -/
def letAttrs (binds kwLet : Node) : PM Node :=
  if binds.isNull then pure .null else sema fun _ => onExprAttrs binds.range binds kwLet

/-- `parseExprLet` (ParseExpr.cpp:256-293). -/
def parseExprLet (R : Rec) (k : Nat) : PM Node := do
  let tok ← peek
  let kwLet ← mkMisc tok.range
  pconsume
  withSync .kw_in do
    let binds ← parseBinds R k
    let attrs ← letAttrs binds kwLet
    match ← expect k .kw_in with
    | none => do
      let c ← lastR
      let h ← fresh ⟨tok.range.l, c⟩
      pure (.exprLet h kwLet .null .null attrs)
    | some t => do
      let kwIn ← mkMisc t.range
      pconsume
      let e ← R.expr
      needExpr e b!"let ... in"
      let c ← lastR
      let h ← fresh ⟨tok.range.l, c⟩
      pure (.exprLet h kwLet kwIn e attrs)

/-- `parseExprWith` (ParseExpr.cpp:295-332). -/
def parseExprWith (R : Rec) (k : Nat) : PM Node := do
  let tok ← peek
  pconsume
  let kwWith ← mkMisc tok.range
  withSync .semi_colon do
    let w ← R.expr
    needExpr w b!"with expression"
    match ← expect k .semi_colon with
    | none => do
      noteMatch tok.range (TK.spelling .kw_with)
      let c ← lastR
      let h ← fresh ⟨tok.range.l, c⟩
      pure (.exprWith h kwWith .null w .null)
    | some t => do
      let semi ← mkMisc t.range
      pconsume
      let e ← R.expr
      needExpr e b!"with body"
      let c ← lastR
      let h ← fresh ⟨tok.range.l, c⟩
      pure (.exprWith h kwWith semi w e)

/-- The first binding whose path starts with `body` (ParseExpr.cpp:373-391). -/
def findBody : List Node → Option Node
  | [] => none
  | .binding h (.attrPath ha (n :: ns) ds) eq v :: bs =>
    if n.staticName? = some b!"body" then some (.binding h (.attrPath ha (n :: ns) ds) eq v) else findBody bs
  | _ :: bs => findBody bs

/-- The fix of `DK_DeprecatedLet` (ParseExpr.cpp:372-392). -/
def legacyLetFixes (src : Bytes) (lcurly rcurly : CRange) (attrs : Node) : List Fix :=
  match attrs with
  | .exprAttrs _ (.binds _ bs) _ _ _ =>
    match findBody bs with
    | some (.binding h _ _ v) =>
      if v.isNull then []
      else [{ message := b!"convert to `let ... in ...`",
              edits := [.mkRemoval lcurly, .mkRemoval h.range, ⟨rcurly, b!"in " ++ v.src src⟩] }]
    | _ => []
  | _ => []

/-- `Attrs->sema().staticAttrs().contains("body")` (ParseExpr.cpp:367). -/
def hasBody : Node → Bool
  | .exprAttrs _ _ _ st _ => (findStatic b!"body" st).isSome
  | _ => false

/-- The `}` of `parseExprLegacyLet` (ParseExpr.cpp:352-359): its range, or the end of the bindings. -/
def legacyClose (k : Nat) (lcurly : Token) (c : Cursor) : PM CRange := do
  match ← expect k .r_curly with
  | some t => do
    pconsume
    pure t.range
  | none => do
    noteMatch lcurly.range lcurly.kind.spelling
    pure ⟨c, c⟩

/-- `parseExprLegacyLet` (ParseExpr.cpp:334-398). -/
def parseExprLegacyLet (R : Rec) (k : Nat) : PM Node := do
  let tok ← peek
  let kwLet ← mkMisc tok.range
  pconsume
  withSync .r_curly do
    let lcurly ← peek
    expectMay k .l_curly
    let binds ← parseBinds R k
    let c ← lastR
    let rcurly ← legacyClose k lcurly c
    let c ← lastR
    let attrs ← sema fun _ => onExprAttrs ⟨tok.range.l, c⟩ binds kwLet
    let src ← .get (·.lex.src)
    emitD { kind := .deprecatedLet, range := ⟨tok.range.l, c⟩,
            fixes := if hasBody attrs then legacyLetFixes src lcurly.range rcurly attrs else [] }
    whenP (hasBody attrs = false) (emitD { kind := .letAttrsMissingBody, range := ⟨tok.range.l, c⟩ })
    let h ← fresh ⟨tok.range.l, c⟩
    pure (.exprLegacyLet h kwLet attrs)

/-- The possible results of the lookahead of `parseExpr`. -/
inductive Look
  | lambda
  | attrs
  | if_
  | assert_
  | let_
  | legacyLet
  | with_
  | op
deriving DecidableEq, Repr

/-- The lookahead of `parseExpr` (ParseExpr.cpp:76-143). -/
def lookAhead : PM Look := do
  match ← peekKind 0 with
  | .id_ => do
    let k1 ← peekKind 1
    pure (if k1 = .at_ ∨ k1 = .colon then .lambda else .op)
  | .l_curly => do
    match ← peekKind 1 with
    | .id_ => do
      match ← peekKind 2 with
      | .colon | .at_ | .question | .comma | .id_ | .ellipsis => pure .lambda
      | .r_curly => do
        let k3 ← peekKind 3
        pure (if k3 = .colon ∨ k3 = .at_ then .lambda else .attrs)
      | _ => pure .op
    | .r_curly => do
      let k2 ← peekKind 2
      pure (if k2 = .at_ ∨ k2 = .colon then .lambda else .op)
    | .ellipsis => pure .lambda
    | _ => pure .op
  | .kw_if => pure .if_
  | .kw_assert => pure .assert_
  | .kw_let => do
    let k1 ← peekKind 1
    pure (if k1 ≠ .l_curly then .let_ else .legacyLet)
  | .kw_with => pure .with_
  | _ => pure .op

/-- `parseExpr` (ParseExpr.cpp:76-144). -/
def parseExpr (R : Rec) (k : Nat) : PM Node := do
  match ← lookAhead with
  | .lambda => parseExprLambda R k
  | .attrs => parseExprAttrs R k
  | .if_ => parseExprIf R k
  | .assert_ => parseExprAssert R k
  | .let_ => parseExprLet R k
  | .legacyLet => parseExprLegacyLet R k
  | .with_ => parseExprWith R k
  | .op => parseExprOpBP R k k 0

/-- The recursive calls with a given fuel. -/
def recN : Nat → Rec
  | 0 => ⟨.fail, .fail⟩
  | n + 1 => ⟨parseExpr (recN n) n, parseExprSelect (recN n) n⟩

/-- `Parser::parse` (ParseSupport.cpp:43-51) with fuel. -/
def parseTop (n : Nat) : PM Node := do
  let e ← (recN n).expr
  let tok ← peek
  whenP (tok.kind ≠ .eof) (emitD { kind := .unexpectedText, range := tok.range })
  pure e

/-- The constructor of `Parser` (Parser.h:153-156). -/
def PState.init (src : Bytes) : PState := ⟨.init src, [], [], [.expr], [], 1, false⟩

/-- `nixf::parse` (ParseSupport.cpp:37-41). -/
def parse (src : Bytes) : Option (Node × PState) := parseTop (src.length + 3) (.init src)

end Verif.Nixf
