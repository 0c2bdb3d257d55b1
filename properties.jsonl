{"id": "C01", "title": "Byte offset to LSP position is the protocol position", "statement": "For a document that is valid UTF-8 and any byte offset that falls on a character boundary, the reported LSP position is exactly (number of newlines before the offset, number of UTF-16 code units between the last newline and the offset).", "quantifier": "all documents (any length, any mix of 1/2/3/4-byte characters) and all character boundaries in them", "why_tests_cant": "the number of documents and boundaries is unbounded; off-by-one errors show up only on particular mixes of astral characters and newlines", "anchors": ["nixd/lspserver/src/SourceCode.cpp: offsetToPosition, lspLength, iterateCodepoints"]}
{"id": "C02", "title": "Position and offset conversions are mutually inverse", "statement": "Converting a character-boundary offset to a position and back gives the same offset, for every valid UTF-8 document; in particular a text edit computed from an AST range is applied by a client exactly on the bytes of this range.", "quantifier": "all valid UTF-8 documents and all character boundaries", "why_tests_cant": "a round trip over unbounded text; sampled documents rarely mix surrogate pairs with line boundaries", "anchors": ["nixd/lspserver/src/SourceCode.cpp: positionToOffset, offsetToPosition, measureUnits"]}
{"id": "C03", "title": "Position to offset never leaves the document", "statement": "For every byte string (valid UTF-8 or not) and every position a client can send, the conversion either reports an error or returns an offset not larger than the document size; negative coordinates, lines past the end, columns past the end of line and columns inside a surrogate pair are rejected.", "quantifier": "all byte strings and all integer positions, including negative and very large ones", "why_tests_cant": "hostile or broken input space is unbounded (invalid UTF-8, truncated sequences, 64-bit coordinates)", "anchors": ["nixd/lspserver/src/SourceCode.cpp: positionToOffset, measureUnits"]}
{"id": "C04", "title": "Incremental edits splice exactly the addressed text", "statement": "When an incremental change is accepted, the new document is (text before the start position) + (new text) + (text after the end position) of the old document, possibly after adding the one inferred final newline; a whole-document change replaces the document; a change whose stated length disagrees with the addressed text is refused.", "quantifier": "all documents, ranges, replacement texts and optional range lengths", "why_tests_cant": "the edit space is unbounded and errors (dropped suffix, off by one, wrong unit) only show for particular texts", "anchors": ["nixd/lspserver/src/SourceCode.cpp: applyChange, inferFinalNewline"]}
{"id": "C05", "title": "Server text equals client text after any edit history", "statement": "After any sequence of open/change/close notifications for any number of files, in any order, the server's view of each open file is exactly the client's text, or the file has been dropped together with its diagnostics after an edit that could not be applied; edits to one file never affect another one.", "quantifier": "all finite histories of notifications over any number of files", "why_tests_cant": "histories are unbounded; desynchronisation depends on long sequences of edits", "anchors": ["nixd/lib/Controller/TextDocumentSync.cpp: onDocumentDidOpen, onDocumentDidChange, onDocumentDidClose", "nixd/lib/Controller/Support.cpp: removeDocument, actOnDocumentAdd", "nixd/lspserver/src/DraftStore.cpp: addDraft, getDraft, removeDraft"]}
{"id": "C06", "title": "Server-generated draft versions increase", "statement": "When the client does not send version numbers, each update of a draft gives it a version string whose number is one more than before, so no two updates of an open file get the same version.", "quantifier": "all version strings and any number of consecutive updates", "why_tests_cant": "carry propagation over arbitrarily many digits; a test stops after a handful of updates", "anchors": ["nixd/lspserver/src/DraftStore.cpp: increment, updateVersion, encodeVersion, decodeVersion"]}
{"id": "C07", "title": "Percent-encoding is lossless and produces only safe characters", "statement": "Decoding the percent-encoded form of any byte string gives this byte string back, and the encoded form contains only unreserved characters, '/', ':' and well-formed %XX escapes.", "quantifier": "all byte strings", "why_tests_cant": "unbounded inputs over 256 symbols; a wrong nibble or boundary affects single bytes", "anchors": ["nixd/lspserver/src/URI.cpp: percentEncode, percentDecode, shouldEscape"]}
{"id": "C08", "title": "File path to URI to path is the identity", "statement": "For every absolute file path the URI the server sends, when sent back by the client, designates the same path; parsing the printed form of any valid URI gives the same scheme, authority and body.", "quantifier": "all absolute paths and all valid URIs", "why_tests_cant": "paths range over all byte strings; the failure cases are unusual paths", "anchors": ["nixd/lspserver/src/URI.cpp: URI::parse, URI::toString, FileSystemScheme, URI::createFile, URI::resolve", "nixd/lspserver/src/Protocol.cpp: URIForFile"]}
{"id": "C09", "title": "Every outgoing request gets at most one completion, and the right one", "statement": "In any interleaving of outgoing requests and incoming replies (duplicate, unknown, late or malformed ids included) the completion of a request runs at most once, it runs with the payload of a reply carrying this request's id or with an eviction error, at most 100 requests are outstanding, and outstanding ids are distinct.", "quantifier": "all finite interleavings of requests and replies, any reply ids", "why_tests_cant": "interleavings and histories are unbounded; the eviction path needs more than 100 outstanding calls", "anchors": ["nixd/lspserver/src/LSPServer.cpp: bindReply, onReply", "nixd/lspserver/include/lspserver/LSPServer.h: PendingCalls, mkOutMethod, MaxPendingCalls"]}
{"id": "C10", "title": "Incoming messages are routed by kind and never silently lost", "statement": "Each well-formed JSON-RPC message goes to exactly one of: notification handler, method handler, pending reply; a request for a registered method is answered at most once with the request's id, an unknown request is answered with an error, an unknown notification is ignored, and only 'exit' or a malformed message ends the session.", "quantifier": "all incoming JSON objects and all registries", "why_tests_cant": "message space is unbounded, and the rare paths (unknown method, missing id, bad version) are not exercised by editors in tests", "anchors": ["nixd/lspserver/src/Connection.cpp: InboundPort::dispatch, InboundPort::loop", "nixd/lspserver/src/LSPServer.cpp: onNotify, onCall, onReply"]}
{"id": "C11", "title": "Message framing is lossless", "statement": "Any sequence of messages written by the server's output port, concatenated on a pipe, is read back by the input port as exactly the same sequence of bodies, whatever bytes the bodies contain.", "quantifier": "all finite sequences of message bodies (arbitrary bytes, arbitrary length)", "why_tests_cant": "bodies may contain header-like text and newlines; sequences are unbounded", "anchors": ["nixd/lspserver/src/Connection.cpp: readStandardMessage, readLine, OutboundPort::sendMessage"]}
{"id": "C12", "title": "Lexing any input makes progress and stays inside the source", "statement": "For every byte string and every lexer context, lexing never reads or moves past the end of the source, every non-EOF token makes progress, and repeated lexing reaches end of file after finitely many steps.", "quantifier": "all byte strings, all lexer contexts, any sequence of context switches", "why_tests_cant": "a crash or an endless loop on one malformed source kills the editor session; the input space is unbounded", "anchors": ["libnixf/src/Parse/Lexer.cpp: lex, lexString, lexIndString, lexPath, consumeTrivia", "libnixf/src/Parse/Lexer.h: consume, cur"]}
{"id": "C13", "title": "Tokens tile the source", "statement": "The concatenation, in order, of skipped trivia and token texts is the source text itself, and each token's reported range delimits exactly its text; nothing is lost or duplicated.", "quantifier": "all byte strings", "why_tests_cant": "loss or duplication of single bytes needs specific input shapes", "anchors": ["libnixf/src/Parse/Lexer.cpp: lex, lexString, lexIndString, finishToken"]}
{"id": "C14", "title": "Reported line and column are those of the byte offset", "statement": "The line (number of newlines before) and column (bytes since the last newline) recorded in every cursor the lexer produces agree with its byte offset.", "quantifier": "all byte strings and all token boundaries in them", "why_tests_cant": "multi-line tokens (comments, strings) over unbounded text", "anchors": ["libnixf/src/Parse/Lexer.cpp: consume", "libnixf/include/nixf/Basic/Range.h: LexerCursor"]}
{"id": "C15", "title": "Identifiers, keywords and numbers are classified by maximal munch", "statement": "A maximal run of identifier characters starting with a letter or underscore is one token; it is a keyword token iff it is one of the reserved words; integer and float literals are recognised by their grammar.", "quantifier": "all byte strings", "why_tests_cant": "identifiers that extend keywords, and numbers followed by letters or dots, form an unbounded family", "anchors": ["libnixf/src/Parse/Lexer.cpp: lexIdentifier, lexNumbers, maybeKW"]}
{"id": "C16", "title": "Operator precedence and associativity follow the Nix table", "statement": "Parsing an expression made of operands and binary operators groups them according to the documented precedence and associativity, keeps the order of operands, and reports an error exactly for chained non-associative operators.", "quantifier": "all operator sequences of any length", "why_tests_cant": "the number of operator sequences grows exponentially with length", "anchors": ["libnixf/src/Parse/ParseOp.cpp: getBP, parseExprOpBP"]}
{"id": "C17", "title": "Escapes in double-quoted strings denote the intended text", "statement": "The text the parser records for a double-quoted string without interpolation is the one obtained by replacing each backslash escape by the character it denotes and keeping every other byte.", "quantifier": "all string bodies", "why_tests_cant": "unbounded bodies; escapes interact with '$', '{' and quotes", "anchors": ["libnixf/src/Parse/Lexer.cpp: lexString", "libnixf/src/Parse/ParseStrings.cpp: parseStringParts, unescape"]}
{"id": "C18", "title": "Escapes in indented strings denote the intended text", "statement": "The text the parser records for an indented string is obtained by replacing ''$ by $, ''' by '', ''\\c by the character it denotes and keeping every other byte.", "quantifier": "all indented string bodies", "why_tests_cant": "unbounded bodies; quotes and dollars interact", "anchors": ["libnixf/src/Parse/Lexer.cpp: lexIndString", "libnixf/src/Parse/ParseStrings.cpp: parseStringParts"]}
{"id": "C19", "title": "Attribute set bindings denote the union of their paths", "statement": "The attribute set built from a list of bindings has at each static path the value bound by the first binding for this path, nested dotted paths and nested set literals are merged, and no non-conflicting binding is lost.", "quantifier": "all lists of bindings with static and dynamic names of any depth", "why_tests_cant": "the number of binding lists is unbounded; merge bugs need particular mixes of dotted paths and literals", "anchors": ["libnixf/src/Sema/SemaActions.cpp: insertAttr, addAttr, selectOrCreate, mergeAttrSets, lowerBinds"]}
{"id": "C20", "title": "Duplicate attributes are reported exactly when bindings conflict", "statement": "A duplicated-attribute error is reported iff two bindings define the same path in a way Nix cannot merge.", "quantifier": "all lists of bindings", "why_tests_cant": "as above: completeness and soundness over an unbounded family", "anchors": ["libnixf/src/Sema/SemaActions.cpp: dupAttr, insertAttr, addAttr, lowerInherit"]}
{"id": "C21", "title": "Formal parameters: duplicates and ellipsis placement", "statement": "Each formal name is kept once (the first occurrence); a duplicate-formal error is reported exactly for every later occurrence, and an ellipsis not in last place is reported.", "quantifier": "all formal parameter lists", "why_tests_cant": "lists are unbounded", "anchors": ["libnixf/src/Sema/SemaActions.cpp: deduplicateFormal, checkFormalEllipsis, onFormals, onLambdaArg"]}
{"id": "C22", "title": "Variables resolve to the innermost lexical binder", "statement": "For every program and every variable occurrence, the definition reported for it is the innermost enclosing let, rec-set, lambda argument or formal binding of that name; builtins only when there is none.", "quantifier": "all programs (any nesting of binders) and all variable occurrences", "why_tests_cant": "the family of nested scopes is unbounded; shadowing bugs need particular nestings", "anchors": ["libnixf/src/Sema/VariableLookup.cpp: lookupVar, dfs, dfsAttrs, dfsLambda"]}
{"id": "C23", "title": "'with' only provides names that no lexical scope defines", "statement": "A variable is reported as coming from a 'with' iff no enclosing lexical scope or builtin defines it and at least one 'with' encloses it; all enclosing 'with's are candidates, innermost first.", "quantifier": "all programs and occurrences", "why_tests_cant": "as C22", "anchors": ["libnixf/src/Sema/VariableLookup.cpp: lookupVar, dfs(ExprWith), getWithScopes"]}
{"id": "C24", "title": "Undefined-variable errors are exact", "statement": "An undefined-variable diagnostic is reported for an occurrence iff it has no enclosing binder, no enclosing 'with' and is not a known builtin.", "quantifier": "all programs", "why_tests_cant": "soundness and completeness over an unbounded family of programs", "anchors": ["libnixf/src/Sema/VariableLookup.cpp: lookupVar"]}
{"id": "C25", "title": "Unused-binding warnings are exact", "statement": "A let binding, formal, lambda argument or 'with' is reported as unused iff no variable occurrence resolves to it.", "quantifier": "all programs", "why_tests_cant": "as C24", "anchors": ["libnixf/src/Sema/VariableLookup.cpp: emitEnvLivenessWarning"]}
{"id": "C26", "title": "Every syntax node has its parent", "statement": "After analysis every node below the root has as its parent the node whose children contain it, the root is its own parent, and searching upwards for an enclosing node of a kind returns the nearest one and always terminates.", "quantifier": "all syntax trees", "why_tests_cant": "trees are unbounded in size and depth", "anchors": ["libnixf/src/Sema/ParentMap.cpp: dfs, query, upExpr, upTo, isRoot"]}
{"id": "C27", "title": "Cursor lookup returns the deepest node containing the cursor", "statement": "For a tree whose children are inside their parents and mutually ordered, looking up a range returns a node containing it such that none of its children contains it, and returns nothing iff the root does not contain it.", "quantifier": "all trees and all ranges", "why_tests_cant": "trees are unbounded", "anchors": ["libnixf/include/nixf/Basic/Nodes/Basic.h: Node::descend"]}
{"id": "C28", "title": "Rename touches exactly the occurrences of one variable", "statement": "Renaming edits exactly the definition and the uses that resolve to it, each once, never those of a shadowing or shadowed variable; 'with'-provided and builtin names are refused.", "quantifier": "all programs and all cursor positions", "why_tests_cant": "unbounded scopes; capture only shows for particular nestings", "anchors": ["nixd/lib/Controller/Rename.cpp: rename", "nixd/lib/Controller/Definition.cpp: findDefinition"]}
{"id": "C29", "title": "References and highlights agree with rename", "statement": "Find-references returns the ranges of all uses of the definition, document-highlight returns the same ranges plus the definition, and both agree with the edits of rename.", "quantifier": "all programs and cursor positions", "why_tests_cant": "consistency of three features over unboundedly many programs", "anchors": ["nixd/lib/Controller/FindReferences.cpp", "nixd/lib/Controller/DocumentHighlight.cpp", "nixd/lib/Controller/Rename.cpp"]}
{"id": "C30", "title": "Semantic tokens decode to what was collected", "statement": "Decoding the relative encoding sent to the client yields the collected tokens in document order with their absolute positions, types and modifiers; none is lost.", "quantifier": "all collections of tokens in any order", "why_tests_cant": "permutations and deltas over unbounded lists", "anchors": ["nixd/lib/Controller/SemanticTokens.cpp: finish"]}
{"id": "C31", "title": "Folding ranges are multi-line and complete", "statement": "Every reported folding range spans at least two lines and is the range of a foldable construct; every foldable multi-line construct nested less than the depth limit below reachable nodes is reported exactly once.", "quantifier": "all syntax trees", "why_tests_cant": "unbounded trees; the depth limit makes behaviour depend on depth", "anchors": ["nixd/lib/Controller/FoldingRange.cpp: collectFoldingRanges"]}
{"id": "C32", "title": "A completion list not marked incomplete has all candidates", "statement": "The completion list sent has at most 30 items; if it is not marked incomplete it contains every matching candidate, and otherwise it contains the first 30.", "quantifier": "all candidate lists, prefixes and numbers of providers", "why_tests_cant": "truncation appears only with more than 30 candidates and particular provider limits", "anchors": ["nixd/lib/Controller/Completion.cpp: addItem, collectDef, completePackages, completeOptions, onCompletion", "nixd/lib/Eval/AttrSetProvider.cpp: completeNames, onOptionComplete, MaxItems"]}
{"id": "C33", "title": "Generated double-quoted strings denote the given text", "statement": "For every text, the double-quoted Nix string produced by code actions (JSON conversion, attribute key quoting, string rewriting) lexes as one string without interpolation whose value is this text.", "quantifier": "all byte strings", "why_tests_cant": "unbounded texts; '$', '{', backslashes and quotes interact across positions", "anchors": ["nixd/lib/Controller/CodeActions/Utils.cpp: escapeNixString, quoteNixAttrKey", "libnixf/src/Parse/Lexer.cpp: lexString", "libnixf/src/Parse/ParseStrings.cpp: unescape"]}
{"id": "C34", "title": "Generated indented strings denote the given text", "statement": "For every text, the indented string produced by the string rewriting action lexes as one indented string whose value is this text.", "quantifier": "all byte strings", "why_tests_cant": "as C33", "anchors": ["nixd/lib/Controller/CodeActions/RewriteString.cpp: escapeForIndentedString", "libnixf/src/Parse/Lexer.cpp: lexIndString"]}
{"id": "C35", "title": "Unquoted attribute keys are identifiers with the same name", "statement": "If a code action writes an attribute name without quotes, this text lexes as exactly one identifier token with the same spelling (not as a keyword); any other name is quoted and denotes the same name.", "quantifier": "all byte strings", "why_tests_cant": "unbounded names; keyword and boundary characters", "anchors": ["nixd/lib/Controller/CodeActions/Utils.cpp: isValidNixIdentifier, quoteNixAttrKey", "libnixf/src/Parse/Lexer.cpp: lexIdentifier"]}
{"id": "C36", "title": "JSON to Nix conversion keeps the value", "statement": "When the conversion is offered, the produced Nix text is an expression that denotes the JSON value; conversions exceeding the depth or width limits are not offered.", "quantifier": "all JSON values", "why_tests_cant": "unbounded nesting, widths, keys and strings", "anchors": ["nixd/lib/Controller/CodeActions/JsonToNix.cpp: jsonToNix, addJsonToNixAction"]}
{"id": "C37", "title": "Flattening and packing attribute paths keep the meaning", "statement": "Applying 'flatten' or any 'pack' action to a binding yields an attribute set with the same value at each path; no unrelated binding is removed.", "quantifier": "all attribute sets, all bindings the action is offered on", "why_tests_cant": "unbounded binding lists and interleavings", "anchors": ["nixd/lib/Controller/CodeActions/FlattenAttrs.cpp", "nixd/lib/Controller/CodeActions/PackAttrs.cpp"]}
{"id": "C38", "title": "With-to-let keeps the meaning", "statement": "When offered, replacing 'with e; body' by 'let inherit (e) vars; in body' keeps the meaning of every variable occurrence.", "quantifier": "all programs and all 'with' expressions on which the action is offered", "why_tests_cant": "scoping interactions over unbounded programs", "anchors": ["nixd/lib/Controller/CodeActions/WithToLet.cpp"]}
{"id": "C39", "title": "Inherit conversions keep the meaning", "statement": "Converting 'x = x;', 'x = e.x;' to inherit, and a single-name inherit to a binding, keeps the value of every attribute.", "quantifier": "all attribute sets and bindings", "why_tests_cant": "interaction with recursive sets and quoting over unbounded programs", "anchors": ["nixd/lib/Controller/CodeActions/ConvertToInherit.cpp", "nixd/lib/Controller/CodeActions/InheritToBinding.cpp"]}
{"id": "C40", "title": "Extract-to-file passes exactly the free variables", "statement": "The parameters of the extracted file are exactly the non-builtin variables used inside the expression and defined outside it, and the replacement passes the same names.", "quantifier": "all programs and all extractable sub-expressions", "why_tests_cant": "free-variable computation over unbounded trees", "anchors": ["nixd/lib/Controller/CodeActions/ExtractToFile.cpp: FreeVariableCollector, generateExtractedContent, generateImportStatement"]}
{"id": "C41", "title": "Diagnostic suppression filters exactly the configured kinds", "statement": "The published list contains each non-suppressed diagnostic and its notes, in order, and nothing else; unknown names in the configuration have no effect; a new configuration takes effect for every open file.", "quantifier": "all diagnostic lists and all suppression configurations", "why_tests_cant": "combinations of kinds and names are exponential; histories of configuration changes are unbounded", "anchors": ["nixd/lib/Controller/Diagnostics.cpp: updateSuppressed, isSuppressed, publishDiagnostics", "nixd/lib/Controller/Configuration.cpp: updateConfig"]}
{"id": "C42", "title": "Quick fixes offered are exactly those touching the selection", "statement": "A code-action request returns the fixes of exactly those diagnostics whose range touches the requested range, one action per fix, in order, with the fix's edits.", "quantifier": "all diagnostics and request ranges", "why_tests_cant": "interval relations at boundaries over unbounded lists", "anchors": ["nixd/lib/Controller/CodeAction.cpp: onCodeAction", "nixd/lspserver/include/lspserver/Protocol.h: Range::overlap"]}
{"id": "C43", "title": "Adding a variable to formals produces a formal list with exactly one more name", "statement": "The edited parameter list is a syntactically valid list containing the old formals in order plus the new name, and the ellipsis stays last.", "quantifier": "all formal lists for which the action is offered", "why_tests_cant": "lists with ellipsis, defaults and trailing separators are unbounded", "anchors": ["nixd/lib/Controller/CodeActions/AddToFormals.cpp"]}
{"id": "C44", "title": "Document symbols: selection range lies in the full range and the outline follows the tree", "statement": "Each symbol's selection range is contained in its range, as the protocol demands, and every attribute of a non-nested set appears once in the outline.", "quantifier": "all syntax trees", "why_tests_cant": "unbounded trees", "anchors": ["nixd/lib/Controller/DocumentSymbol.cpp: collect, getAttrRange, getLambdaSelectionRage"]}
{"id": "C45", "title": "Attribute path at the cursor is the path from the root", "statement": "The option path computed for a cursor on an attribute name is the concatenation of the static names on the nested set chain from the outermost set down to the cursor, with a leading 'config' removed once; dynamic names and inherit are refused.", "quantifier": "all attribute set trees and positions", "why_tests_cant": "unbounded nesting", "anchors": ["nixd/lib/Controller/AST.cpp: findAttrPath, findAttrPathForOptions, getValueAttrPath, getSelectAttrPath"]}
{"id": "C46", "title": "Parsing any token sequence terminates and consumes all input", "statement": "For every source text the parser returns after finitely many steps, never skips backwards, and either consumes the whole input or reports an error.", "quantifier": "all source texts", "why_tests_cant": "unbounded inputs; error recovery loops are triggered by malformed programs", "anchors": ["libnixf/src/Parse/ParseSupport.cpp: consume, expect, removeUnexpected", "libnixf/src/Parse/ParseExpr.cpp: parse"]}
{"id": "C47", "title": "Option lookup follows the path through submodules", "statement": "Selecting an option path walks attribute by attribute, enters sub-options at submodule types and consumes one name at attrsOf-submodule types; the result depends only on the option tree and path.", "quantifier": "all option trees and paths", "why_tests_cant": "unbounded trees; stateful mutation shows only in repeated queries", "anchors": ["libnixt/lib/Value.cpp: selectOptions, tryGetSubmoduleType"]}
{"id": "C48", "title": "Syntax tree ranges are correct", "statement": "In the tree of any source, every node's range is a range of the source with correct line and column numbers, every identifier is the text of its range, children lie inside their parents and do not overlap.", "quantifier": "all source texts, including malformed ones", "why_tests_cant": "unbounded inputs; wrong ranges come from error recovery in particular nestings", "anchors": ["libnixf/src/Parse/*.cpp: all parse functions", "libnixf/src/Sema/SemaActions.cpp: onExprAttrs, onFormals, onLambdaArg"]}
{"id": "C49", "title": "Parsing never fails an assertion", "statement": "No assertion of the parser or of its semantic actions fails, whatever the source is.", "quantifier": "all source texts", "why_tests_cant": "unbounded inputs", "anchors": ["libnixf/src/Parse/ParseStrings.cpp: parseExprPath", "libnixf/src/Sema/SemaActions.cpp: desugarInheritExpr", "libnixf/src/Parse/ParseAttrs.cpp: parseExprAttrs"]}
{"id": "C50", "title": "Diagnostics of the parser lie in the source", "statement": "The ranges of every diagnostic, its notes and the edits of its fixes are ranges of the source with correct line and column numbers.", "quantifier": "all source texts", "why_tests_cant": "unbounded inputs; diagnostics arise in error recovery", "anchors": ["libnixf/src/Parse/ParseSupport.cpp: expect, removeUnexpected", "libnixf/src/Parse/*.cpp: Diags.emplace_back"]}
{"id": "C51", "title": "Needless `rec` warnings are exact", "statement": "The keyword of a recursive attribute set is reported as needless iff no variable refers to an attribute of the set, and the offered fix removes the keyword only.", "quantifier": "all programs", "why_tests_cant": "as C24", "anchors": ["libnixf/src/Sema/VariableLookup.cpp: dfs(ExprAttrs), dfsAttrs, emitEnvLivenessWarning"]}
{"id": "C52", "title": "Diagnostics about builtins are exact", "statement": "A definition is reported as overriding a builtin or constant iff it has the name of one (and is not inherited from builtins); `builtins.x` is reported as unknown iff builtins has no such attribute, and as having a removable prefix iff x alone means the same.", "quantifier": "all programs and all tables of builtins", "why_tests_cant": "as C24", "anchors": ["libnixf/src/Sema/VariableLookup.cpp: DefBuilder::add, checkBuiltins, checkLetInheritBuiltins"]}
{"id": "C53", "title": "The cursor is looked up where the client put it", "statement": "The node found for a position sent by the client is looked up at the place of the text that this position denotes.", "quantifier": "all texts and cursor positions", "why_tests_cant": "unbounded texts; the units of columns differ only outside of ASCII", "anchors": ["nixd/lib/Controller/Convert.cpp: toNixfPosition, toNixfRange", "nixd/lib/Controller/*.cpp: descend"]}
{"id": "C54", "title": "Definition lookup never crashes or finds an unrelated variable", "statement": "For every cursor position in every program, looking up the definition returns the definition of the variable at the cursor or one of the documented errors; no assertion fails, nothing else is thrown.", "quantifier": "all programs, including malformed ones, and all nodes of their trees", "why_tests_cant": "unbounded programs; failures need particular nestings of inherit", "anchors": ["nixd/lib/Controller/Definition.cpp: findDefinition, findInheritVar"]}
{"id": "C55", "title": "Literals are recorded with their values", "statement": "The value recorded for an integer is the number its digits denote, or zero if it does not fit into 64 bits; floats, paths and search paths are recorded with their text, and paths with their interpolations.", "quantifier": "all sources, including malformed ones, and all literals in them", "why_tests_cant": "unbounded literals; values near the limits", "anchors": ["libnixf/src/Parse/ParseSimple.cpp: parseExprSimple", "libnixf/src/Parse/ParseStrings.cpp: parseExprPath"]}
{"id": "C56", "title": "Interpolations in strings are those of Nix", "statement": "In a string, `${` starts an interpolation exactly if it does so in Nix: unless the dollar sign is the second one of a pair of dollar signs read as text.", "quantifier": "all string bodies", "why_tests_cant": "runs of dollar signs of any length", "anchors": ["libnixf/src/Parse/Lexer.cpp: lexString, lexIndString"]}
{"id": "C57", "title": "Rewriting a string keeps what it denotes", "statement": "The action that turns a double-quoted string into an indented one or vice versa replaces exactly the string by one of the other kind with the same text and interpolations.", "quantifier": "all strings in all sources", "why_tests_cant": "quotes, dollars, escapes and interpolations interact across fragments", "anchors": ["nixd/lib/Controller/CodeActions/RewriteString.cpp: addRewriteStringAction, buildDoubleQuotedString, buildIndentedString"]}
{"id": "C58", "title": "Semantic tokens classify names as Nix scoping does", "statement": "Each variable on one line gets exactly one kind of token, which is the one of its class under the scoping rules of Nix: constant, bound, builtin, from `with`, or unknown; attributes, formals and literals get the kind of token of their construct; nothing else gets one.", "quantifier": "all sources", "why_tests_cant": "unbounded nesting of scopes", "anchors": ["nixd/lib/Controller/SemanticTokens.cpp: SemanticTokenBuilder::visit, addImpl"]}
{"id": "C59", "title": "Document links are exactly the paths that can be opened", "statement": "Every path without interpolations that resolves to an existing file gets exactly one link with the range of the path and the resolved target, and nothing else gets a link.", "quantifier": "all sources and all file systems", "why_tests_cant": "all positions of paths in unbounded trees", "anchors": ["nixd/lib/Controller/DocumentLink.cpp: dfs", "nixd/lib/Controller/AST.cpp: resolveExprPath"]}
{"id": "C60", "title": "The client folds the range the server computed", "statement": "Read by the rules of the protocol, the JSON of a folding range denotes the range that was computed.", "quantifier": "all folding ranges", "why_tests_cant": "the protocol's default for absent fields differs from the server's", "anchors": ["nixd/lspserver/src/Protocol.cpp: toJSON(FoldingRange)", "nixd/lib/Controller/FoldingRange.cpp: toFoldingRange"]}
{"id": "C61", "title": "Child symbols lie inside the range of their parent", "statement": "The range of every child symbol of the outline is contained in the range of its parent, as the hierarchy shown by editors demands.", "quantifier": "all sources", "why_tests_cant": "all shapes of unbounded trees, including nodes made up by the parser", "anchors": ["nixd/lib/Controller/DocumentSymbol.cpp: collect, getAttrRange"]}
{"id": "C62", "title": "Completion of a variable offers exactly the names in scope", "statement": "With the cursor on the identifier of a variable, the candidates are exactly the names bound around it (as variables) and the names of Nix (as keywords) that begin with what is typed and are not internal, and the attributes of nixpkgs next to the one that the variable is taken for, each once.", "quantifier": "all sources, all variables in them, all answers of the nixpkgs worker", "why_tests_cant": "all shapes of nested scopes and all sets of names", "anchors": ["nixd/lib/Controller/Completion.cpp: completeVarName, VLACompletionProvider, NixpkgsCompletionProvider", "nixd/lib/Controller/AST.cpp: upEnv"]}
{"id": "C63", "title": "A variable is taken for the right attribute of nixpkgs", "statement": "The selector computed for a variable is the one of the idioms: `pkgs` is all of nixpkgs, `lib` is its attribute, and a name from `with e; ..` is an attribute of what `e` is; of nested `with`s the innermost one has precedence. No assertion fails.", "quantifier": "all sources and all variables in them", "why_tests_cant": "all nestings of with expressions and binders", "anchors": ["nixd/lib/Controller/AST.cpp: idioms::mkVarSelector, withSelector, mkSelector, varSelector"]}
{"id": "C64", "title": "Accepting an option inserts a binding of the option", "statement": "The text that an editor inserts for an option item, with or without snippets, is `name = value;` as a binding of this option.", "quantifier": "all option names and all example or default texts", "why_tests_cant": "all texts, with the special characters of snippets and of Nix", "anchors": ["nixd/lib/Controller/Completion.cpp: OptionCompletionProvider::escapeCharacters, fillInsertText, completeOptions"]}
{"id": "C65", "title": "Completion in a select expression offers attributes of what is before the cursor", "statement": "With the cursor on a name of a select expression of an idiom, or after one of its dots, the candidates are the attributes of the part in front of it, that begin with the name.", "quantifier": "all sources, all select expressions in them and all cursors in their paths", "why_tests_cant": "all positions in paths of any length", "anchors": ["nixd/lib/Controller/Completion.cpp: completeSelect, mkParams, onCompletion"]}
{"id": "C66", "title": "Fixes are offered for published diagnostics only", "statement": "A quick fix is offered only for a diagnostic that is also shown to the user: fixes of suppressed kinds are not offered.", "quantifier": "all documents, all sets of suppressed kinds, all request ranges", "why_tests_cant": "all combinations of diagnostics and suppressed kinds", "anchors": ["nixd/lib/Controller/CodeAction.cpp: onCodeAction", "nixd/lib/Controller/Diagnostics.cpp: publishDiagnostics, isSuppressed"]}
{"id": "C67", "title": "Quoting or unquoting an attribute name keeps the tree", "statement": "Applying 'quote attribute name' or 'unquote attribute name' gives a document with the same tree, except for the form of this name.", "quantifier": "all sources, all attribute names in them", "why_tests_cant": "all contexts of the name", "anchors": ["nixd/lib/Controller/CodeActions/AttrName.cpp"]}
{"id": "C68", "title": "A document has no syntax error exactly if it is an expression, and the tree is that of the expression", "statement": "For every source: if the parser reports no syntax error, the source is an expression of the grammar of Nix and the tree is the abstract syntax of this expression; and if the source is an expression of the grammar, no syntax error is reported.", "quantifier": "all sources", "why_tests_cant": "all sources, all nestings of all constructs; that text is never skipped or put in the wrong place can only be tested on samples", "anchors": ["libnixf/src/Parse: all parser functions", "libnixf/src/Sema/SemaActions.cpp: onFormals"]}
{"id": "C69", "title": "Go to definition leads to the binder, to nixpkgs, to the file or to the option", "statement": "At a variable the reply is the place of the innermost binder of its name (of the outermost with that may give it, nothing for builtins), followed by the place in nixpkgs of what the variable stands for. In a select expression it is the place of the attribute of nixpkgs, at a path literal the file, at an attribute name the declarations of the option. The places in nixpkgs are those that nixpkgs reports, and the request does not end the server.", "quantifier": "all documents, cursor positions, answers of the workers", "why_tests_cant": "all scopes, all nestings of sets, all answers of workers including malformed positions", "anchors": ["nixd/lib/Controller/Definition.cpp: onDefinition, defineVar, defineSelect, parseLocation", "nixd/lib/Controller/AST.cpp: mkSelector, findAttrPathForOptions"]}
{"id": "C70", "title": "Hover shows the description of the attribute or option at the cursor", "statement": "At a variable or select expression that stands for an attribute of nixpkgs the text is made from all of its description, next to the expression; at an attribute name it is that of the first option worker that knows the option.", "quantifier": "all documents, cursor positions, answers of the workers", "why_tests_cant": "all scopes and all combinations of fields in the answers", "anchors": ["nixd/lib/Controller/Hover.cpp"]}
{"id": "C71", "title": "Inlay hints show versions of the variables that come from nixpkgs", "statement": "Exactly the variables in the requested range that come from `with pkgs` and have a version in nixpkgs get a hint, at their end, in the order of the document.", "quantifier": "all documents, ranges, answers of the worker", "why_tests_cant": "all nestings of with and binders", "anchors": ["nixd/lib/Controller/InlayHints.cpp", "nixd/lib/Controller/AST.cpp: havePackageScope"]}
{"id": "C72", "title": "The range of a node is exactly the text of its expression", "statement": "In a document without syntax errors, the text in the range of any expression node, read as a document of its own, has no syntax errors and is the same expression; the text of an attribute name is an attribute name, the text of a binding is a binding. Every expression, name and binding in the tree is such a part, except the string inside of a quoted name and the set inside of a let.", "quantifier": "all documents without syntax errors, all nodes", "why_tests_cant": "all expressions in all contexts: the text of an operand, of an interpolation in a path, of a function body, with all neighbours", "anchors": ["libnixf/src/Parse/*.cpp: LexerCursorRange of every node", "libnixf/include/nixf/Basic/Nodes/Basic.h: Node::src"]}
{"id": "C73", "title": "Replacing the text of a node replaces exactly that node", "statement": "If in a document without syntax errors the text of an expression, attribute name or binding is replaced by another simple expression, name or binding, and the new text is separated from its neighbours (white space, brackets, semicolons, quotes), then the new document has no syntax errors and its tree is the old one with this one node replaced.", "quantifier": "all documents without syntax errors, all nodes, all replacement texts", "why_tests_cant": "the text before the node is read again with another continuation: all tokens, all precedences, all contexts", "anchors": ["nixd/lib/Controller/CodeActions/*.cpp: edits of node ranges", "libnixf/src/Parse/Lexer.cpp", "libnixf/src/Parse/*.cpp"]}
{"id": "C74", "title": "Diagnostics shown follow the current text and configuration under every schedule of the threads", "statement": "For every interleaving of the input thread with the configuration jobs of the thread pool: the stored analysis of a file is that of its current text, all work ends, and when it has ended the client was last told, for every file, the diagnostics of the current text under the current configuration.", "quantifier": "all histories of notifications and configurations, all schedules, any number of files and jobs", "why_tests_cant": "tests see one schedule; the windows between publishing, locking and storing are a few instructions wide", "anchors": ["nixd/lib/Controller/Support.cpp:14-58", "nixd/lib/Controller/Configuration.cpp:56-89", "nixd/lib/Controller/Diagnostics.cpp:19-120"]}
{"id": "C75", "title": "Formatting returns the output of the formatter", "statement": "For every formatter and document, under every schedule of the two processes: the client gets a reply, and it replaces the document by the output of the formatter (no edit if they are equal, an error if the formatter fails).", "quantifier": "all formatters (any deterministic program), documents, pipe capacities, schedules", "why_tests_cant": "partial reads and writes, full pipes and the order of exits depend on the scheduler and on sizes", "anchors": ["nixd/lib/Controller/Format.cpp:18-102", "nixd/lib/Support/ForkPiped.cpp:8-45"]}
{"id": "C76", "title": "No deadlock between handlers, jobs and workers", "statement": "Whatever messages and jobs the threads of the server work on, and in whatever order they run: at any time some thread can go on unless all are done, so every request that is started is finished. The mutexes are taken in one order.", "quantifier": "all sets of threads, all sequences of handlers in them, all numbers of loop iterations, all schedules", "why_tests_cant": "a deadlock needs a certain interleaving of several threads", "anchors": ["nixd/lib/Controller/Configuration.cpp:56-89", "nixd/lib/Controller/Support.cpp:14-58", "nixd/lspserver/src/LSPServer.cpp:53-98", "nixd/lib/Controller/Hover.cpp:27-49", "nixd/lib/Eval/AttrSetClient.cpp:32-40"]}
{"id": "C77", "title": "Replies of the evaluation worker", "statement": "A worker answers every request about packages and options with what the evaluated values say: the parts of a package or an option are the strings found at their attribute paths, completion gives the first names with the prefix, one part that can not be evaluated does not remove the other parts, and no request ends the process.", "quantifier": "all heaps of values, including values whose evaluation throws; all attribute paths, prefixes and sequences of requests", "why_tests_cant": "the tests evaluate a few well-formed packages and options; values whose evaluation throws, missing positions and a failing first expression are not tested", "anchors": ["nixd/lib/Eval/AttrSetProvider.cpp:26-422", "libnixt/lib/Value.cpp:10-115"]}
{"id": "C78", "title": "The configuration in effect", "statement": "A configuration sent by the client is accepted exactly if it follows the documented schema, with defaults for what is not given. The configuration accepted last is in effect: formatting command, suppressed diagnostics, the expression for packages and the sets of options. A configuration that is not accepted changes nothing. The configuration of the command line is in effect until one is received.", "quantifier": "all JSON values, all command line configurations, all sequences of replies of the client", "why_tests_cant": "settings are sent once in the tests; the effect of settings that are removed, null or given on the command line is not tested", "anchors": ["nixd/lib/Controller/Configuration.cpp:11-133", "nixd/lib/CommandLine/Configuration.cpp:25-30", "nixd/lib/Controller/LifeTime.cpp:175-199", "nixd/include/nixd/Controller/Configuration.h:14-37"]}
{"id": "C79", "title": "Messages between server and worker arrive as they were sent", "statement": "Every request and reply between the server and an evaluation worker is read by the other side as exactly the value that was sent, whatever members are missing and whatever the receiving variable held before.", "quantifier": "all requests and replies, all previous contents of the receiving variable", "why_tests_cant": "a few messages are tested; strings are arbitrary bytes in Nix and locations come from arbitrary values", "anchors": ["nixd/lib/Protocol/AttrSet.cpp:6-143", "nixd/include/nixd/Protocol/AttrSet.h", "nixd/lspserver/src/Protocol.cpp:64-162"]}
{"id": "C80", "title": "nixf-tidy prints exactly the diagnostics of its input", "statement": "For every input and all arguments nixf-tidy prints a JSON text from which exactly the diagnostics of the parser (and of the variable lookup if asked for) can be read back, with all ranges, arguments, notes, fixes and tags, in order.", "quantifier": "all inputs, all arguments", "why_tests_cant": "tests compare a few outputs; names and texts in diagnostics are arbitrary bytes that have to be escaped", "anchors": ["libnixf/tools/nixf-tidy.cpp:16-55", "libnixf/src/Basic/JSONDiagnostic.cpp:8-60"]}
{"id": "C81", "title": "Redundant parentheses are reported exactly, and removing them keeps the expression", "statement": "A diagnostic for redundant parentheses is reported for exactly the parentheses around simple expressions, with a fix that removes them. Applying the fix to a document gives the same expression with the contents in place of the parentheses.", "quantifier": "all documents, all parentheses in them", "why_tests_cant": "the contents may be any simple expression and may stand anywhere, next to any other token", "anchors": ["libnixf/src/Parse/ParseSimple.cpp:14-35", "libnixf/src/Parse/ParseSimple.cpp:40-79"]}
{"id": "C82", "title": "Fixes for URLs and of the variable analysis change exactly what they announce", "statement": "Applying the fix for a URL does not change how the document is read. Applying the fix that removes `rec`, an unused `with` or the prefix `builtins.` gives a document without syntax errors that differs from the old one in exactly that.", "quantifier": "all documents without syntax errors, all places in them", "why_tests_cant": "the fixes are edits of the text and are applied anywhere, next to any other token, white space and comments", "anchors": ["libnixf/src/Parse/ParseSimple.cpp:110-125", "libnixf/src/Sema/VariableLookup.cpp:210-225", "libnixf/src/Sema/VariableLookup.cpp:360-370", "libnixf/src/Sema/VariableLookup.cpp:425-440", "libnixf/src/Sema/VariableLookup.cpp:443-493"]}
{"id": "C83", "title": "Bindings in the place of bindings", "statement": "If consecutive bindings of a set or of a let are replaced by a text of any number of bindings, also none, then the document has no syntax errors either and differs from the old one only in that this set or let has the new bindings instead of these.", "quantifier": "all documents without syntax errors, all sets and lets in them, all consecutive bindings of them, all texts of bindings", "why_tests_cant": "the bindings may be anywhere in the document, next to any other token, white space and comments, and the new text is arbitrary", "anchors": ["libnixf/src/Parse/ParseAttrs.cpp", "libnixf/src/Sema/VariableLookup.cpp:135-165", "nixd/lib/Controller/CodeActions/FlattenAttrs.cpp:52-107", "nixd/lib/Controller/CodeActions/PackAttrs.cpp:163-321"]}
{"id": "C84", "title": "Descriptors of worker processes are right and are closed once", "statement": "A worker gets the pipes as standard input, output and error and nothing else that the server does not share with it on purpose; the server gets the other ends; when the worker is gone, the server closes exactly these descriptors, each of them once, and when starting fails it keeps none.", "quantifier": "all tables of descriptors, all free numbers the kernel may give, all programs over AutoCloseFD objects, all numbers of workers, other threads included", "why_tests_cant": "the numbers depend on what else is open and on the interleaving with other threads; a second close is silent unless another thread got the number", "anchors": ["nixd/lib/Support/ForkPiped.cpp:8-45", "nixd/lib/Support/AutoCloseFD.cpp", "nixd/include/nixd/Support/PipedProc.h:9-16", "nixd/lib/Support/StreamProc.cpp:17-29"]}
{"id": "C85", "title": "A session goes on until the client ends it, and ends as the protocol says", "statement": "As long as the client sends only messages of the protocol and requests that the server has announced, the server neither ends the session nor crashes; the notification exit ends it, with exit code 0 exactly if the client had asked for a shutdown; requests before initialize and after shutdown are refused.", "quantifier": "all sequences of messages, requests of the server and replies of handlers; both values of the option for semantic tokens", "why_tests_cant": "sessions are unbounded and interleave messages of both sides; a method that is announced and not registered ends the server only if some client uses it", "anchors": ["nixd/lib/Controller/Support.cpp:69-139", "nixd/lib/Controller/LifeTime.cpp:86-207", "nixd/tools/nixd.cpp:49-83"]}
{"id": "C86", "title": "Progress that was begun is ended once, when the evaluation is over", "statement": "For every evaluation sent to a worker the client gets one beginning and, when the worker answers or is gone, one end with the same token after it; the token belongs to this evaluation only and was accepted by the client; a client without the capability gets nothing.", "quantifier": "all histories of evaluations and messages of the worker, all values of rand()", "why_tests_cant": "answers come in any order, for any number of evaluations, with malformed messages and forgotten calls in between", "anchors": ["nixd/lib/Controller/LifeTime.cpp:60-84", "nixd/lib/Controller/Support.cpp:60-67", "nixd/include/nixd/Controller/Controller.h:88-114", "nixd/lspserver/src/LSPServer.cpp:53-99"]}
{"id": "C87", "title": "What the client says about its documents is what the server understands", "statement": "The notifications about opened, changed and closed documents are understood exactly if they have the members the protocol asks for, in any order and with any others, and as what they say; so after any session of a client that keeps to the protocol, with any other messages in between, the texts of the server are those of the editor. Each way of writing the URI of a file is understood.", "quantifier": "all JSON values; all histories of edits, messages, requests and replies; all spellings of URIs", "why_tests_cant": "the objects may have any members in any order, URIs may have any escapes, and histories are unbounded", "anchors": ["nixd/lspserver/src/Protocol.cpp:64-138", "nixd/lspserver/src/Protocol.cpp:184-189", "nixd/lspserver/src/Protocol.cpp:666-722", "nixd/lspserver/include/lspserver/LSPBinder.h:68-81", "nixd/lib/Controller/TextDocumentSync.cpp:13-49"]}
{"id": "C88", "title": "Completion items arrive and come back as the server made them", "statement": "An editor that reads a completion list by the members of the protocol finds the items the server made, in their order; and when it sends an item back to be resolved, in any order of members, it gets the same item, for a package with the version and the description of exactly that attribute.", "quantifier": "all items with UTF-8 strings; all orders of members; all answers of the worker; all values of uninitialised variables", "why_tests_cant": "the members that are left out depend on which strings are empty, items have any strings, and the value of an uninitialised variable differs between runs", "anchors": ["nixd/lspserver/src/Protocol.cpp:191-206", "nixd/lspserver/src/Protocol.cpp:1068-1123", "nixd/lspserver/src/Protocol.cpp:1181-1248", "nixd/lib/Controller/Completion.cpp:120-142", "nixd/lib/Controller/Completion.cpp:527-554"]}
{"id": "C89", "title": "Code actions arrive and come back as the server made them, and documentation is opened for the right function", "statement": "An editor that reads code actions by the members of the protocol finds the title, kind, preference and edits of the fixes and actions the server made; when it sends an action back to be resolved it gets the same action. Documentation is offered exactly for attributes of lib around the cursor that have static names, and resolving this action opens the page of these names.", "quantifier": "all actions and fixes with UTF-8 texts; all orders of members; all documents and cursors; all names", "why_tests_cant": "titles, texts and names are unbounded, and the nearest selection around the cursor depends on the whole tree", "anchors": ["nixd/lspserver/src/Protocol.cpp:223-381", "nixd/lspserver/src/Protocol.cpp:850-856", "nixd/lspserver/src/Protocol.cpp:920-992", "nixd/lib/Controller/CodeAction.cpp:62-81", "nixd/lib/Controller/CodeAction.cpp:124-156", "nixd/lib/Controller/CodeActions/NoogleDoc.cpp:18-76", "nixd/lib/Controller/CodeActions/ExtractToFile.cpp:366-421", "nixd/lib/Controller/CodeActions/Utils.cpp:10-25"]}
{"id": "C90", "title": "Requests are understood as the protocol says, and replies and diagnostics are read as the server made them", "statement": "The parameters of a request about a document are understood exactly if they have the members the protocol asks for, in any order and with others, and as what these say. An editor that reads by the members of the protocol finds in the published diagnostics and in the replies to requests for hover, highlights, links, hints, tokens, symbols, folding ranges, definitions, references and renames what the server computed, and a diagnostic that it sends back is understood.", "quantifier": "all parameters (JSON values), all diagnostics and replies with UTF-8 texts, all nestings of symbols, all orders of members", "why_tests_cant": "parameters are arbitrary JSON values, symbols are nested without bound, and lists, texts and numbers are unbounded", "anchors": ["nixd/lspserver/src/Protocol.cpp:737-819", "nixd/lspserver/src/Protocol.cpp:843-848", "nixd/lspserver/src/Protocol.cpp:959-973", "nixd/lspserver/src/Protocol.cpp:1039-1066", "nixd/lspserver/src/Protocol.cpp:1125-1132", "nixd/lspserver/src/Protocol.cpp:1293-1339", "nixd/lspserver/src/Protocol.cpp:1558-1585", "nixd/lspserver/src/Protocol.cpp:1655-1690", "nixd/lib/Controller/Support.cpp:89-116", "nixd/lib/Controller/Diagnostics.cpp:42-120"]}
{"id": "C91", "title": "The server knows and respects what the editor says about itself", "statement": "`initialize` succeeds for every object. For each capability the server looks at, it takes the editor to have it exactly if the value that the path of names of the protocol leads to says so, whatever the other members are. Progress, requests for the configuration and snippets are sent only to editors that say they can do with them, and so is everything else the protocol lets depend on a capability.", "quantifier": "all parameters of `initialize` (JSON values), all capabilities, all histories of evaluations, all replies of the editor, all documents and positions", "why_tests_cant": "parameters are arbitrary JSON values with any nesting, order and types of members", "anchors": ["nixd/lspserver/src/Protocol.cpp:387-427", "nixd/lspserver/src/Protocol.cpp:447-619", "nixd/lspserver/src/Protocol.cpp:1085-1100", "nixd/lspserver/src/Protocol.cpp:1134-1179", "nixd/lspserver/include/lspserver/Protocol.h:500-691", "nixd/lib/Controller/LifeTime.cpp:86-173", "nixd/lib/Controller/Support.cpp:60-67", "nixd/lib/Controller/Configuration.cpp:126-134", "nixd/lib/Controller/Completion.cpp:511"]}
{"id": "C92", "title": "The server's own tests are read as they are written", "statement": "With `--lit-test` the server reads a Markdown file. A message is read exactly if the file begins with a block, after any text: a block of JSON stands for its lines without those that begin with `#`, a block of Nix for the opening of a document with the name beside `nix` and the lines of the block as its text. The messages of a file are those of its blocks in their order; a block without its end gives none.", "quantifier": "all files (byte strings), all blocks, all texts around them", "why_tests_cant": "this is the code that reads the tests: what it drops or changes is not tested, and files have any number of lines and blocks", "anchors": ["nixd/lspserver/src/Connection.cpp:163-206", "nixd/lspserver/src/Connection.cpp:248-303", "nixd/lspserver/src/Connection.cpp:305-337"]}
{"id": "C93", "title": "The text of every diagnostic is defined", "statement": "The message of a kind of diagnostic or note has places for arguments, which `simpleFormat` fills without looking whether there are any arguments left; it reads past the end of the arguments exactly if there are fewer of them than places. For every source, each diagnostic of the parser and each diagnostic of variable lookup, and each of their notes, has one argument for each place, so its text is the message with the arguments in the places, in order, also if an argument itself contains `{}`. The published diagnostics are read by the editor with these texts.", "quantifier": "all sources (byte strings), all syntax trees for variable lookup, all tables of builtins", "why_tests_cant": "the arguments are added at some fifty places of the parser, the semantic actions and the analysis, many of them only for rare errors, and one without its argument reads memory past the end of a vector only when the text is shown", "anchors": ["libnixf/src/Basic/Diagnostic.cpp:9-23", "libnixf/include/nixf/Basic/Diagnostic.h:79-214", "libnixf/src/Parse/ParseSupport.cpp:53-178", "libnixf/src/Sema/VariableLookup.cpp:43-62"]}
{"id": "C94", "title": "Search paths are read as Nix reads them", "statement": "At the start of a token, the lexer gives a search path token exactly if the text begins with `<`, path characters, any number of times a slash and path characters, and `>`; the token is this text, whatever follows. Otherwise `<` is an operator.", "quantifier": "all byte strings, all positions between tokens, all trivia before the token", "why_tests_cant": "search paths have any number of parts, and almost every text with `<` is not one; tests have one or two of them", "anchors": ["libnixf/src/Parse/Lexer.cpp:287-320", "libnixf/src/Parse/Lexer.cpp:472-520"]}
{"id": "C95", "title": "URIs are read as Nix reads them", "statement": "At the start of a token, the lexer gives a URI token exactly if the text begins with a letter, scheme characters, a colon and at least one URI character; the token is the longest such text, whatever follows.", "quantifier": "all byte strings, all positions between tokens, all trivia before the token", "why_tests_cant": "a function `x: x` differs from a URI `x:x` only by a space, and the path and identifier rules compete for the same first characters; tests have a few URIs", "anchors": ["libnixf/src/Parse/Lexer.cpp:258-285", "libnixf/src/Parse/Lexer.cpp:472-520"]}
