# Formal model of nixd: design

The subject is the pinned checkout of `nix-community/nixd` in `/repo` (C++).
The code is not built or run here. The model is written by reading the
sources; every Lean definition cites the file and lines it models.

## Layout of `/verif/lean/Verif`

| folder      | content |
|-------------|---------|
| `Model/`    | transcription of the C++ functions, one Lean function per C++ function |
| `Spec/`     | small, independent specifications (protocol positions, splice, Nix scoping rule, ...) |
| `Lemmas/`   | helper lemmas |
| `Props/`    | the property theorems and, next to each, an `example` showing that its hypotheses can be met |

Naming of property theorems: `Cnn_...`. A theorem that proves only a part of a
property ends in `_partial`. When the code violates a property the negation is
proved on a concrete witness (`Cnn_..._violated` or `Cnn_..._counterexample`).

## Conventions of the model

* C++ strings are `List UInt8` (bytes). Sizes and offsets are `Nat`; machine
  integers are modelled only where the property is about them.
* A loop is structural recursion, or well-founded recursion with a measure; no
  fuel parameter decides a result silently (where fuel is used, a theorem shows it
  is always sufficient).
* `assert` failure, out-of-bounds reads, null dereference and uncaught exceptions
  are distinct outcomes of the model, never totalised away.
* Mutation through references becomes returning the new value.

## Trusted base

* Lean 4.33.0's kernel. The axioms of the theorems are among `propext`,
  `Classical.choice`, `Quot.sound` (checked with `#print axioms`). No axioms of
  our own, no `sorry`, no `native_decide`, no `bv_decide`.
* The reading of the C++ code: nothing mechanically ties the model to the code.
* Library functions are modelled by their documented meaning
  (`std::map`, `std::sort`, `StringRef::find/rfind/count`, `llvm::json`, `isxdigit`, ...).
* Not modelled: threads and thread pool, locks (each critical section is one step),
  memory management, the OS (pipes are byte lists), JSON text parsing/printing
  by LLVM, the external Nix evaluator, logging, LSP messages' field codecs.

## Plan, property by property

* **C01–C03** `SourceCode.cpp`: transcribe `iterateCodepoints`, `lspLength`, `measureUnits`,
  `positionToOffset`, `offsetToPosition` on bytes. Spec: the document as a list of
  Unicode scalar values, UTF-8 encoding from Lean core, UTF-16 length of a
  scalar value. Proof: induction on the list of scalar values.
* **C04** `applyChange`, `inferFinalNewline`; spec: splice on the character list.
* **C05** draft store + document sync as a state machine over several files;
  refinement to the client's `path → text` map.
* **C06** `increment` etc. Suspected violated (carry loop never moves left); negation
  with a witness plus partial theorem.
* **C07, C08** `URI.cpp`: percent codec, parse/toString, file scheme.
* **C09** pending calls as a state machine; invariant over all histories.
* **C10** `dispatch`, `onCall`, `onNotify`, `onReply`. Unknown calls end the session:
  negation plus partial.
* **C11** framing: writer and reader over byte lists; round trip for all sequences.
* **C12–C15** the whole lexer on bytes with cursor (offset, line, column).
* **C16** `getBP`/`parseExprOpBP` over operand/operator token lists; spec: precedence
  grammar. Deviations (`/`, pipes) proved as witnesses.
* **C17, C18, C33, C34, C35** string lexing + `parseStringParts` + escape functions.
* **C19, C20, C21** `SemaActions.cpp` attribute merging and formals. For whole documents: the parser keeps what the
  actions report until its end, since it only changes diagnostics of its own afterwards (`Lemmas/Reports`, `Props/Reported`).
* **C22–C25** `VariableLookup.cpp` on an abstract syntax tree; spec: inductive scoping relation.
* **C26, C27** parent map and `descend` on range-labelled trees.
* **C28, C29** rename / references / highlight on top of the C22 model.
* **C30** delta encoding: decode ∘ encode = sort.
* **C31** folding; **C32** completion caps; **C41** suppression; **C42** overlap; **C44** symbols;
  **C45** attribute path at cursor: direct models of each controller function.
* **C36** generated texts are shown to be tokens (`Lemmas/TokMake`) and phrases of the grammar of C68 (`Props/JsonToNix`);
  their abstract syntax denotes the JSON value (`Spec/Json`)
* **C37–C40, C43** code actions on abstract syntax with a small evaluator
  where "meaning" is needed; expected violations get witnesses.
* **C46** the parser itself: token-level model, termination by well-founded measure.
* **C47** `selectOptions` over an option tree.

* **C68** an inductive grammar `G` of Nix over source texts (`Spec/Syntax`, independent of the parser; tokens by
  `Tok`, operators by a table of powers) and the abstract syntax `syn` of a tree. Soundness: per parser function a
  Hoare-style triple (`Snd`) that relates a run without syntax errors to a derivation (`Lemmas/Syn*`). Lookahead in the
  C++ token buffer is handled by `Here`: the parser state stands at a suffix of the source, buffered tokens are those
  that the lexer would give there. Completeness: per parser function a triple (`Cpl`) from a derivation and the token that
  follows it to a run without syntax errors that ends where the derivation does (`Lemmas/Cpl*`); the look-ahead of
  `parseExpr` is decided by the first tokens of each form. Unambiguity of the grammar is a corollary.
* **C72, C73** parts of documents (`Spec/Subst`: parts of nodes, replacing one part of an expression; `Props/Replace`): the grammar
  with nodes (`Lemmas/Located`) says where every node is; `Lemmas/GSwap` shows that a phrase does not depend on the text after
  it beyond a boundary (`Edge`); `Lemmas/ReplaceInd` is the induction over the grammar that puts another phrase into the place
  of a node.
* **C37, C39, C57, C67** what code actions do to documents without syntax errors (`Props/Rewrites`): every edit is an instance of C73,
  so the new document is the old one with one binding, name or string replaced. `Lemmas/TokPath` has the tokens of names with dots
  in between, `Lemmas/StringRewrite` the bodies of rewritten strings. The conditions on the text around the edit (`Fitting`) are
  those without which the findings below are counterexamples.
* **C69–C71** definitions, hover, inlay hints (`Model/Definition`): the workers are functions from attribute paths to their
  answers; variables are related to nixpkgs by `Denotes` (C63) and to binders by `resolve` (C22), options by `Nested` (C45).
* **C74** threads (`Model/Threads`): the sequential server of C05/C41 with its two kinds of threads, every lock acquisition and
  every call of `isSuppressed` a step of its own. One invariant for all schedules, one for those without the overlap that the
  findings are about; a lexicographic measure for termination.
* **C75** formatting (`Model/Format`): the formatter is any deterministic program (`Prog`), its meaning on an input is `Runs`,
  defined without pipes; the two processes run byte by byte in any order.
* **C76** locks (`Model/Locks`): threads as lists of operations on mutexes and events, handlers as scripts. The order of the
  mutexes (`rank`) is part of the proof only; the theorems speak of steps of the system.
* **C77** worker (`Model/Worker`): the values are cells of a heap, each with a value in weak head normal form, or throwing, or
  not initialised. `At` (Props) says which value is at an attribute path without using the functions of the model. Assumption
  about nix (not part of the repository): `Value::type()` of a value that was never initialised ends the process, and
  `forceValue` of it does nothing. Printing of values and selection through submodules (C47) are parameters.
* **C78** configuration (`Model/Config`): the decoders update a value in place as those of LLVM do. `IsConfiguration` is the
  documented schema as a relation. Objects have no repeated keys (they are maps in LLVM), a hypothesis on the accepted
  configurations.
* **C79** protocol (`Model/Protocol`): `toJSON` and `fromJSON` of all messages, with the differences between `map` and
  `mapOptional`. `Fixes` is what is assumed about `llvm::json::fixUTF8`.
* **C80** nixf-tidy (`Model/Tidy`, `Spec/JsonText`): arguments, diagnostics, `to_json` and the text. The reader in
  `Spec/JsonText` knows JSON (white space, escapes) and the names of the members, not the printer.
* **C81** redundant parentheses: which are reported (`Lemmas/Reports`, with the actions of C20 and C21) and what the document is after
  the fix, with the replacement theorem of C73. `fixed` in `Props/Parens` applies the edits of a fix from the last to the first.
* **C82** fixes: what the document is after the fixes for URLs, `rec`, `with` and `builtins.` (`Props/Fixes`), with the replacement
  theorem of C73. The ranges of the tokens `rec`, `with`, `;` and `.` are tracked in the located grammar (`Lemmas/Located`).
  `Props/InsertPrefix` is about the insertion of `builtins.`. The variable may be what a selection begins with; then the selection
  is what is replaced. The replacement theorem therefore says which nodes are the base of a selection (`Hole` in `Lemmas/Replace`).
* **C83** bindings in the place of bindings (`Props/Bindings`): the set as a whole is replaced, where the text up to the bindings
  stays. `Props/BindingRewrites` applies it to flattening, to packing and to the fix for unused bindings.
* **C84** descriptors of workers (`Model/Descriptors`, `Props/Descriptors`): tables from numbers to open files, for every choice of
  free numbers. `raw_fd_ostream` is constructed not to close its descriptor; what the worker itself does later (`freopen`,
  `execl`) is not modelled.
* **C85** sessions (`Model/Session`, `Props/Session`): the registered methods and the announced capabilities, on the message loop of
  `Model/Rpc`. Which requests belong to a capability is taken from the protocol (`capMethods`).
* **C86** progress (`Model/Session`, `Props/Session`): evaluations are numbered in the model, so that messages can be attributed to
  them independently of the random tokens.
* **C87** messages about documents (`Model/DocumentMessages`, `Props/DocumentMessages`): the decoders of Protocol.cpp, and the
  message loop of C10 with the handlers of C05. The messages are specified by the members of their objects; the client is the
  editor of `Spec/Client`, which may write its messages in any way. Texts of JSON are not modelled.
* **C88** completion items in messages (`Model/CompletionMessages`, `Props/CompletionMessages`): the JSON of the items of C62 to
  C65, and `completionItem/resolve`. The items are specified by the members of their objects; `print` and `parse` stand for the
  text of JSON in `data` and are assumed to be inverse for the parameters of the item.
* **C89** code actions in messages (`Model/ActionMessages`, `Props/ActionMessages`): the JSON of fixes, of actions with one edit, of
  the action for documentation and of moving an expression to a file; `codeAction/resolve`, and `addNoogleDocAction`. The actions
  are specified by the members of their objects. The edits themselves are those of C36 to C43.
* **C90** other requests and replies in messages (`Model/Replies`, `Props/Replies`): which parameters are understood, and the JSON of
  published diagnostics and of the replies of C28 to C31, C44, C59 and C69 to C71. The messages are specified by the members of
  their objects. Texts are assumed to be UTF-8; `fixUTF8` changes others.
* **C91** `initialize` (`Model/Initialize`, `Props/Initialize`): `fromJSON` of `InitializeParams` and `ClientCapabilities` with what is
  stored when it fails, and what depends on it. The specification follows paths of names in the JSON value. `offsetEncoding` and
  `initializationOptions`, which come last and are never used, are left out.
* **C92** tests (`Model/LitTest`, `Props/LitTest`): `readLitTestMessage` and `InboundPort::loop`, with the parser of JSON as a
  parameter. The specification describes the lines of a block; `Starts` and `Ends` say what white space around a line is ignored. The
  same file has the loop for editors, about which there are two more theorems of C11.
* **C93** messages (`Lemmas/Filled`, `Props/Messages`): no new model; `simpleFormat` gives `ub` where the code reads past the end of
  the arguments. The specification cuts the message at its places and puts the arguments between the pieces. The proof goes through
  all functions of the lexer, the parser, the semantic actions and variable lookup. C90 assumed that the texts are defined; now only
  that the arguments are UTF-8. For sources of ASCII characters that is proved too, for C80 and C93 (`Lemmas/Ascii`,
  `Lemmas/AsciiParser`, `Lemmas/AsciiScopes`, `Props/AsciiSources`): all names in the tree and all strings in diagnostics are ASCII.
* **C94** search paths (`Props/SearchPath`): no new model; the specification is the regular expression of Nix, which the code quotes
  in a comment.
* **C95** URIs (`Props/UriToken`): no new model; the specification is the regular expression of Nix.

Status per property is kept in `MANIFEST.json`.

## Findings

Properties the code violates, with the theorem that proves it (file under `lean/Verif/Props`).

* C03: the `int64_t` column is passed to an `int` parameter, so a column of 2^32 on an empty line is accepted as
  column 0 instead of being rejected (`C03_column_truncation_violated`, Text).
* C06: after version 9 comes version 1, after 19 comes 11 (`C06_increment_violated`, Version).
* C08: `/a\b` comes back as `/a/b`, and the POSIX path `/c:/x` as `c:/x` (`C08_backslash_violated`,
  `C08_drive_violated`, URI).
* C09: a reply with id -4294967295 completes the request with id 1 (`C09_negative_id_violated`, Rpc).
* C10: a request for an unregistered method is never answered and ends the session
  (`C10_unknown_request_violated`); a well-formed response whose id is a string makes the server throw
  (`C10_string_id_response_violated`, Rpc).
* C11: a complete message already in the pipe is not delivered once the writer has closed its end, as the reader tests
  for the hang-up first (`C11_hangup_loses_messages_violated`, Framing).
* C12: the lexer moves past the end of the source on `"\` (string context) and `''''\` (indented string context)
  (`C12_past_end_violated`, Lexer). The model clamps the position to the end and sets the flag `oob`. What the C++ does
  after that point is undefined, so the theorems about parsing say nothing about the real code there.
* C15: `.5` is lexed as a dot and an integer (`C15_float_without_integer_part_violated`); `|||>` is one pipe operator
  instead of `||` `|>` (`C15_or_pipe_violated`, Tokens).
* C16: `/` groups to the right and binds tighter than `*`, `|>` groups to the right and `<|` to the left, `!a // b` is
  `!(a // b)`, `-a ? b` is `-(a ? b)`, and `a ? b ? c` is accepted (`C16_division_violated`, `C16_pipe_violated`,
  `C16_not_update_violated`, `C16_negate_has_violated`, `C16_has_has_violated`, Prec).
* C48: the keyword `let` is a child of the set of bindings but lies in front of it (`C48_let_violated`); the children of
  `let { ... }` overlap (`C48_legacy_let_violated`, Parser).
* C49: `{ inherit "a"; }` and `./${a}${b}` fail assertions (`C49_assert_violated`, Parser).
* C24: the name of an internal builtin, for example `fetchFinalTree`, fails an assertion in variable lookup
  (`C24_internal_builtin_violated`, Scope). A duplicate attribute is dropped from the tree, so that undefined variables
  in its value are not reported.
* C20: `{ "" = 1; "" = 2; }` and `{ ${"a"} = 1; a = 2; }` are duplicates for Nix but are not reported, since `isStatic`
  requires exactly one fragment and does not look into `${}` (`C20_dynamic_names_violated`, Attrs).
* C25: the argument of `x: 1` is not reported (`C25_lambda_arg_violated`, Scope).
* C51: `let { body = 1; }` is reported as a needless `rec`, and the fix removes `let` (`C51_legacy_let_violated`, Scope).
* C52: `builtins: builtins.foo` is reported as an unknown builtin (`C52_shadowed_violated`), and the fix for
  `map: builtins.map` makes it refer to the argument (`C52_captured_violated`, Builtins).
* C28: the expression of `inherit (x) a b;` is analysed once per name, so one range is edited twice
  (`C28_each_once_violated`); in `let inherit x;` the name stands for two variables (`C28_let_inherit_violated`); of
  `let a.b = 1; a.c = 2; in a` only the first `a` is renamed (`C28_nested_definition_violated`); renaming a variable that
  is inherited into a set renames the attribute as well (`C28_inherit_attribute_violated`, Rename).
* C53: the column sent by the client counts UTF-16 units and is used as a count of bytes
  (`C53_wrong_variable_violated`, Cursor).
* C54: with the cursor on `x` in `{ x = 1; inherit x; }` an assertion fails, with the cursor on `b` in
  `{ inherit ${ { b = 1; }.b }; }` `std::map::at` throws, and in a similar program the definition of an unrelated
  variable is returned (`C54_duplicate_violated`, `C54_dynamic_violated`, `C54_unrelated_violated`, Rename).
* C18: every escape sequence of an indented string is recorded as `'` (`C18_violated`, Strings).
* C34: the text `it'` is written as `''it'''`, which is not closed; the text `'${x}` becomes an interpolation
  (`C34_violated`, Strings). Not modelled: Nix removes the indentation of indented strings, so that texts with indented
  lines or a leading newline change too.
* C56: `"$$${a}"` is text for the parser, and `$$` with an interpolation for Nix (`C56_violated`, Strings).
* C57: `"\${a} ${b}"` is rewritten to `''${a} ${b}''` with two interpolations, `"\$${x}"` to `''$${x}''` with none, and
  `''a''${b}''` to `"a'{b}"` (`C57_interpolation_created_violated`, `C57_interpolation_lost_violated`,
  `C57_escape_violated`, Strings). `f"a"` becomes `f''a''`, which is one identifier (`C57_adjacent_violated`, Rewrites).
* Nix reads a carriage return in a double-quoted string as a newline (with a newline following it, as one newline); the
  parser keeps it, as C17 asks for. Floats are decoded by `strtof`, so in single precision; the model keeps their text.
* C30: the length of a token is sent in bytes, so the string `"é"` is announced as four units long
  (`C30_length_violated`, SemanticTokens). Positions are computed in UTF-16 units.
* C58: variables in interpolations, in `inherit`, in defaults of formals and in attribute paths get no token
  (`C58_missing_violated`, SemanticTokens).
* C31: defaults of formals and interpolations are not visited (`C31_unvisited_violated`, FoldingRange). Nodes nested 256
  levels deep or more are not visited either, as `C31_exact` says.
* C60: a start or end character 0 is left out of the JSON, and the protocol's default for an absent character is the
  length of the line (`C60_violated`, FoldingRange).
* C59: the path inside `./c/${./a}` gets no link (`C59_nested_violated`, DocumentLink).
* C44: the expression of `inherit (e) a b;` is visited once for each name, so the attributes in `e` are listed twice
  (`C44_twice_violated`, DocumentSymbol).
* C61: in `{ a.b = 1; }` the symbol of `b` is a child of the symbol of `a`, whose range is that of the name `a`
  (`C61_violated`, DocumentSymbol).
* C45: with the cursor on `x` in `{ ${{ x = 1; }} = 2; }` the assertion "must have corresponding value" fails
  (`C45_crash_violated`); on `b` in `{ a = x.b; }` the path is `a.b` (`C45_select_violated`); on `b` in
  `{ a = ({ b = 1; }); }` it is `b` (`C45_paren_violated`, AttrPath).
* C47: `selectOptions` assigns to the value it is given, so an answer can depend on earlier queries if the options of a
  submodule have a `type` that is a submodule type (`C47_repeated_violated`, Options). Trees built by the module system do
  not have this shape.
* C32: the worker sends at most 30 options and does not say that there are more, so that a list of options is not marked
  as incomplete (`C32_options_violated`); without a nixpkgs worker `*nixpkgsClient()` dereferences a null pointer
  (`C32_no_worker_violated`); with the cursor on `config` in `{ config = 1; }` the path is empty and `Scope.back()` is
  undefined (`C32_config_violated`, Completion).
* C62: a name bound in two scopes is offered twice (`C62_once_violated`, Completion).
* C63: of nested `with`s the outermost is taken: in `with pkgs; with lib; x` the name is looked for in `pkgs` only
  (`C63_innermost_violated`, Completion).
* C64: names of options are not escaped in snippets, and are not quoted where Nix needs it (`C64_snippet_violated`,
  `C64_quote_violated`, Completion).
* C65: in `pkgs.foo.bar` with the cursor on `foo`, the attributes of `pkgs.foo` are offered as replacements of `foo`
  (`C65_middle_violated`); at the second dot of `pkgs.foo. bar` the attributes of `pkgs.foo.bar` are offered
  (`C65_inner_dot_violated`); nothing is offered after the first dot, as it is not a child of the select expression
  (`C65_first_dot_violated`, Completion).
* C37: packing all bindings of a name replaces the text from the first to the last of them, with what is in between
  (`C37_unrelated_violated`); a binding of the name itself is packed one level too deep (`C37_whole_violated`); packing
  recursively drops `rec`, the source of an `inherit`, and sets with dynamic attributes (`C37_rec_violated`,
  `C37_inherit_violated`, `C37_dynamic_violated`, CodeAction). What is nested more than a hundred sets deep is replaced by a
  comment (`C37_depth_violated`, PackText).
* C38: a variable that may also come from an outer `with` no longer can (`C38_outer_violated`); the set of the `with` gets into
  the scope of the names it gives (`C38_capture_violated`, CodeAction; the exact conditions are in `C38_body_partial` and
  `C38_set_partial`, WithToLet).
* C39: `x = x` in a recursive set is no `inherit x` (`C39_recursive_violated`); quotes around names are lost
  (`C39_quoted_violated`); parentheses around the source are lost (`C39_parentheses_violated`, CodeAction);
  `b = 1 .a.b` becomes `inherit (1.a) b` (`C39_number_violated`), `inherit or` becomes `or = or` (`C39_or_violated`, Rewrites).
* C40: variables used by `inherit` are not passed (`C40_inherit_violated`); variables from a `with` inside the extracted
  expression are passed although they are not in scope (`C40_with_violated`); `import ./f.nix` is not put in parentheses
  (`C40_argument_violated`, CodeAction); with the cursor on the name of a binding nothing is offered, against the comment in
  the code (`C40_name_violated`, ExtractToFileText).
* C43: after a trailing comma a second comma is inserted (`C43_trailing_violated`, CodeAction). In front of a lone ellipsis with a comma before
  it (`a@{, ...}: b`, which nixd accepts) the new list has an empty formal (`C43_leading_violated`, AddFormal). If the last default is a URI, as in
  `{ a ? x:y }: b`, the inserted comma becomes a part of the URI (`C43_uri_violated`, AddFormal).
* C66: fixes of suppressed diagnostics are offered (`C66_suppressed_violated`, QuickFix).
* C67: an unquoted name may run into what follows it (`C67_unquote_violated`, CodeAction), or into what is in front of it
  (`C67_adjacent_violated`, Rewrites).
* C68: `a ?` without an attribute path is accepted (`C68_has_path_violated`); so are empty documents (`C68_empty_violated`)
  and a leading comma after `x@` (`C68_comma_violated`); a set with `__functor` cannot be called directly
  (`C68_call_violated`, Syntax).
* C36: a negative number in an array becomes `[ -1 ]`, which is not an expression (`C36_negative_violated`); neither is
  `-9223372036854775808` (`C36_smallest_violated`) nor `1e+22` (`C36_exponent_violated`); a number out of range becomes the
  variable `inf` (`C36_infinite_violated`, JsonToNix).
* C69: the line of a package is one too large (`C69_line_violated`, for all files and lines); a position that cannot be read
  ends the server (`C69_unreadable_violated`, `C69_crash_violated`), as does a name in a dynamic name of `inherit`
  (`C69_inherit_violated`); without a worker for nixpkgs a null pointer is dereferenced, also for local variables
  (`C69_no_worker_violated`); where there is no definition the reply is an error (`C69_no_definition_violated`, Definition).
* C70: nothing is shown for options without a worker for nixpkgs (`C70_no_nixpkgs_violated`); a local variable `lib` is taken
  for that of nixpkgs (`C70_local_violated`); a long description is shown only with a short one (`C70_long_violated`,
  Definition).
* C71: variables that are bound, or that come from a nearer `with`, get hints (`C71_bound_violated`,
  `C71_inner_with_violated`); no worker is a null pointer (`C71_no_worker_violated`, Definition).
* C74: a configuration job that republishes between the publication of new diagnostics and the storing of the new translation unit
  leaves the client with the diagnostics of the old text (`C74_stale_violated`); one that runs after the kinds have been looked
  up leaves a suppressed diagnostic on the screen (`C74_suppressed_violated`); of two configurations the older one may win
  (`C74_config_order_violated`, Threads). The branch for texts without a tree publishes under the lock and has neither of the
  first two problems (`C74_locked_up_to_date`).
* C75: the server waits for the formatter to exit before it reads its output, so an output larger than the pipe is never
  answered (`C75_large_output_violated`); a formatter that exits before it has read the document (such as a missing command)
  can kill the server by `SIGPIPE` (`C75_unread_violated`); formatting a closed document dereferences an empty optional
  (`C75_closed_violated`); every request leaves two descriptors open (`C75_descriptors_violated`, Format). `forkPiped` returns
  the standard output twice (ForkPiped.cpp:42-43, see C84), so nobody can read the standard error.
* C76: a request about options waits for the worker with `OptionsLock` held and without a time limit; if the worker exits
  before it answers (evaluation runs out of memory, for example), this request, the next configuration job (which holds
  `ConfigLock` by then), and all formatting requests never go on (`C76_worker_exits_violated`). `client()` checks the worker
  with `kill(pid, 0)`, which succeeds for a process that has exited and was not waited for, and nixd waits for no worker: the
  branch for dead workers is never taken and the next request to it raises `SIGPIPE` (`C76_exited_worker_violated`, Locks).
* C77: `fillOptionDeclarations` catches `AttrPathNotFound` only. An option with a `null` entry in `declarationPositions`
  (`unsafeGetAttrPos` gives null for generated attributes) throws a `TypeError` instead, so hovering gives no description of
  this option, and completion of the scope gives an error instead of all options with the prefix
  (`C77_null_position_violated`, Worker).
* C77: the member `Nixpkgs` has no value until an expression is evaluated. If the first expression can not be evaluated (no
  `<nixpkgs>` in the search path, for example), the next request reads it: `type()` of this value is unreachable code and the
  worker exits (`C77_uninitialised_violated`, Worker). The server then waits as in C76.
* C78: `--config` sets the member `Config` only. Nothing but formatting reads it later, so `nixpkgs`, `options` and
  `diagnostic` given on the command line never have any effect (`C78_command_line_violated`, Config).
* C78: options and packages that are removed from the settings stay in use until the server ends, since only the parts that
  are given are applied and workers are never stopped (`C78_removed_violated`, Config).
* C78: `mapOptional` accepts missing members but not `null`, so a `null` for one part (what editors send for settings that
  are not set) rejects the whole configuration (`C78_null_violated`, Config).
* C78: the reply to `workspace/configuration` is checked to be an array but not to have an element before `front()`
  (`C78_empty_reply_violated`, Config).
* C79: a declaration position whose `file` is not a string becomes a location with the URI `file:`, which `fromJSON` refuses,
  so the server gets no description of the option at all (`C79_file_violated`, Protocol).
* C80: `{ "\xff" = 1; "\xff" = 2; }` aborts nixf-tidy: the duplicated name is an argument of the diagnostic and
  `nlohmann::json` throws on strings that are not UTF-8 (`C80_bytes_violated`, Tidy).
* C81: removing "redundant" parentheses changes the expression when the contents touch their neighbours: `(a)-b` becomes the
  variable `a-b`, `f(x)` becomes `fx`, `(./a).b` becomes the path `./a.b` (`C81_joined_violated`). For `({ __functor = ...; }) 1` nixd
  reports a syntax error after its own fix (`C81_called_violated`, Parens).
* C82: the fix "remove `builtins.` prefix" turns `builtins."map"` into the string `"map"` (`C82_quoted_violated`), and
  `builtins.map or 1` into the syntax error `map or 1` (`C82_default_violated`). The fix "use `builtins.` prefix" turns
  `{ inherit add; }` into the syntax error `{ inherit builtins.add; }` (`C82_inherit_violated`, Fixes).
* C82: the fix "remove unused binding" turns `let"a"=1;b=2;in b` into the syntax error `letb=2;in b`
  (`C82_adjacent_violated`, BindingRewrites).
* C84: `forkPiped` ends with `Err = PipeOut[READ]` where `PipeErr[READ]` is meant (ForkPiped.cpp:43, `C84_errors_violated`).
  `PipedProc` therefore has two owners of one descriptor and closes it twice (`C84_twice_violated`); what another thread opens in
  between, such as the pipe to a formatter, is closed (`C84_stolen_violated`). The other end of the error pipe is never closed
  (`C84_kept_violated`), which limits the number of workers started, also if all are stopped again (`C84_limit_violated`).
  The pipes are not close-on-exec: a worker has the input of all earlier workers open and these do not read the end of their
  input (`C84_inherited_violated`). When `pipe` or `fork` fails, the ends opened so far stay open
  (`C84_throw_violated`, Descriptors).
* C85: `main` returns 0 whether `shutdown` was received or not; `ReceivedShutdown` is written and never read
  (`C85_exit_code_violated`). Requests before `initialize` and after `shutdown` are served (`C85_order_violated`). The capability
  `save` is announced, but `textDocument/didSave` is not registered (`C85_save_violated`, Session).
* C86: when a worker exits, the progress of its evaluations never ends (`C86_exited_violated`); the beginning is sent before the
  client has accepted the token (`C86_create_violated`); tokens are `rand()` and may coincide (`C86_token_violated`, Session).
* C87: a `textDocument/didChange` that cannot be decoded is ignored, and the document stays open with its old text, whereas a
  change that cannot be applied closes it (`C87_ignored_violated`); documents with other URIs than `file:` cannot be opened
  (`C87_scheme_violated`); `file://localhost/x` is taken for the file `//localhost/x` (`C87_host_violated`, DocumentMessages).
* C88: `fromJSON` of `CompletionItem` uses one uninitialised variable for the kind and the format (Protocol.cpp:1212-1219): a
  package, which has no format, comes back from `completionItem/resolve` with `insertTextFormat: 5` (`C88_format_violated`), and
  an item without a kind with arbitrary numbers (`C88_kind_violated`). An option without a description is sent with
  `documentation: null` (`C88_documentation_violated`). Documentation that is a string runs into `llvm_unreachable`, parameters
  that are no object into a null pointer (`C88_undefined_violated`, CompletionMessages).
* C89: `fromJSON` of a `DocumentChange` that creates, renames or deletes a file reads the URI from the whole object
  (Protocol.cpp:322, 339, 356), which always fails; the failure is ignored by `fromJSON` of `CodeAction`. So if the editor resolves
  the action 'Extract to file', as editors do that resolve actions without a command, it gets the action back without its edit,
  and nothing happens (`C89_extract_violated`). Names are not escaped in URLs of documentation: `lib."a/b"` opens the page of
  `lib.a.b` (`C89_escape_violated`); a local variable `lib` is taken for the library (`C89_lib_violated`, ActionMessages).
* C90: `code` of a diagnostic may be a number, but `fromJSON` wants a string (Protocol.cpp:798). If a diagnostic of another server
  with such a code overlaps the selection, the whole request for code actions is answered with an error (`C90_code_violated`). The
  member `includeDeclaration` of a request for references is ignored (`C90_declaration_violated`), and symbols can have names of
  white space, which the protocol forbids (`C90_name_violated`, Replies).
* C91: `fromJSON` of `ClientCapabilities` returns at the first set of kinds that is not an array; its result is ignored by `initialize`,
  so that the capabilities read later, `workDoneProgress` and `configuration` among them, are taken to be absent
  (`C91_lost_violated`, Initialize). Only three capabilities are used at all: symbols are sent in a hierarchy with kinds such as `Null`
  (21), hovers as Markdown and code actions as such to editors that say they do not understand them, and `prepareProvider` is announced
  to editors without `prepareSupport`, which the protocol forbids (`C91_hierarchy_violated`, `C91_symbol_kinds_violated`,
  `C91_markdown_violated`, `C91_commands_violated`, `C91_prepare_violated`).
* C92: the server's tests cannot contain documents that end with a newline, as nearly all documents do: it is taken off
  (`C92_end_violated`, LitTest). So the behaviour after the last newline of a document is not tested by them. The lines of a block of
  JSON are joined without the newline, so that `[1` and `2]` in two lines is read as `[12]` (`C92_joined_violated`), and a block whose
  last line lacks its newline is silently ignored (`C92_last_line_violated`).
* C11: a message that is not JSON ends the session: the loop returns and the server stops, without the error that JSON-RPC asks for
  (`C11_malformed_violated`, LitTest).
* C94: `<nixpkgs/>` is read as a search path without a diagnostic (`C94_slash_violated`, SearchPath). The regular expression above the
  code in `consumeSPath` does not allow a slash before `>`, but the slash is consumed before it is known whether a path character follows.
