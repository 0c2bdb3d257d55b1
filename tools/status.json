{
 "C01": [
  "proved",
  "For every scalar-value list and every character boundary; offsets past the end are clamped."
 ],
 "C02": [
  "proved",
  "Both directions, and injectivity of positions."
 ],
 "C03": [
  "partial",
  "In-bounds for all bytes and positions; exact acceptance on valid UTF-8 for columns below 2^31. Columns are truncated to 32 bits by the code, which violates the rejection claim beyond that: C03_column_truncation_violated."
 ],
 "C04": [
  "proved",
  "Accepted changes splice, valid changes are accepted, mismatching lengths are refused."
 ],
 "C05": [
  "proved",
  "All histories over any number of files, by a refinement invariant."
 ],
 "C06": [
  "partial",
  "The code violates the property: the carry loop never moves left (C06_increment_violated, C06_versions_repeat). Proved for versions whose last digit is not 9, first version and client versions."
 ],
 "C07": [
  "proved",
  "All byte strings."
 ],
 "C08": [
  "partial",
  "URI print/parse round trip proved for all printable URIs; path round trip proved except for the two cases where the code breaks it (backslash in a POSIX path, /X: paths), which have witnesses; a bare //net path fails an assertion."
 ],
 "C09": [
  "partial",
  "Exactly-once accounting, bound, distinct ids, eviction of the oldest and completion by the matching reply proved over all histories. Ids below -2^31 in a reply are compared modulo 2^32 by the code (C09_negative_id_violated)."
 ],
 "C10": [
  "partial",
  "Routing proved for every message and state; the code violates the claim for unknown requests (session ends, no reply) and responses with non-integer ids (exception). At-most-one reply is proved relative to handlers answering at most once."
 ],
 "C11": [
  "partial",
  "Round trip proved for all sequences of bodies and all read schedules while the pipe stays open; if the writer hangs up, messages in the pipe are lost (C11_hangup_loses_messages_violated). What can be parsed is handed on as it is (C11_dispatched); a message that is no JSON ends the session (C11_malformed_violated)."
 ],
 "C12": [
  "partial",
  "In bounds exactly except for a lone trailing backslash inside a string (violation proved); progress, termination and finiteness proved for every context. Missing: in-bounds at the two violating inputs, where the code is wrong."
 ],
 "C13": [
  "proved",
  "Tiling for every sequence of lexing contexts, ranges delimit token texts for every reachable state; runs that stop at the C12 violation are excluded by hypothesis."
 ],
 "C14": [
  "proved",
  "Every cursor (state, tokens, diagnostics, notes, fixes) in every reachable lexer state."
 ],
 "C15": [
  "partial",
  "Words, keywords, integers, paths, URIs, punctuation and maximal munch proved. Floats without integer part (.5) and |||> are violations (proved)."
 ],
 "C16": [
  "partial",
  "For every call of the operator parser: the order of the items is kept, the tree follows the table if the items avoid /, pipes, ! with //, unary minus with ? and ? ?, and an operator is reported as not associative only if no grouping exists. The five deviations have witnesses. In documents without syntax errors every operator expression that avoids these is grouped according to the table, whatever it is inside of (C16_document)."
 ],
 "C17": [
  "proved",
  "For every double-quoted string of every parsed file: if the text between the quotes denotes t without interpolation (backslash escapes replaced, all other bytes kept), then t is what is recorded and the range ends with the closing quote. For strings with interpolations the recorded pieces are exactly those of the rules the code follows."
 ],
 "C18": [
  "partial",
  "Violated: every escape sequence of an indented string is recorded as a single quote. Proved: the exact rules by which all indented strings are read, and that strings without escape sequences are recorded as they are."
 ],
 "C19": [
  "proved",
  "In every set of every parsed file the entry at a static path is exactly what the bindings give together (paths create sets, two sets at the end of a path are merged one level deep, the first binding wins); without clashes it is what the first binding for the path gives; nothing that does not clash is lost; bindings that begin with a dynamic name are all kept in order."
 ],
 "C20": [
  "partial",
  "The duplicated-attribute errors in the list of every parsed document are exactly those of the clashes of a binding with what is bound before it in one of the sets of its tree, and there is one exactly if a binding clashes with an earlier one; the error about merging a recursive with another set is in the list exactly if this happens. Violated for names that Nix considers static and nixd does not (`\"\"` and `${\"a\"}`)."
 ],
 "C21": [
  "proved",
  "For all lists of formals the semantic action keeps the first formal with each name. The errors in the list of every parsed document are exactly those of the lists of formals and the arguments of its tree: the later formals of a name, the clashes with the argument name, ellipses that are not last, missing separators and empty formals."
 ],
 "C22": [
  "proved",
  "Every program: each variable gets its innermost binder, a builtin only if there is none, the recorded uses are exact, and the analysis finishes. Nodes of a parsed tree are proved to have distinct identities."
 ],
 "C23": [
  "proved",
  "Every program: from `with` iff free, not builtin and enclosed by one; all enclosing ones are recorded, innermost first. The definition that is returned is that of the outermost one (proved)."
 ],
 "C24": [
  "proved",
  "Every program: exact, with the arguments of the diagnostic. The name of an internal builtin fails an assertion (witness and exact condition proved)."
 ],
 "C25": [
  "partial",
  "let bindings, formals, arguments with formals and `with`: exact for every program. Unused arguments without formals are never reported (witness)."
 ],
 "C26": [
  "proved",
  "For the tree of every source. The keyword `let` is a child of two nodes; the theorems say which of them is its parent."
 ],
 "C27": [
  "proved",
  "For the tree of every source the result contains the range and no child of it does, and something is found iff the root contains the range. Where ranges touch, the first child is taken."
 ],
 "C28": [
  "partial",
  "For every cursor: edits are exactly one binder's definition and the variables referring to it, completeness from uses, definitions and inherited names; builtins, with-names and undefined names are refused. 'Each once' is violated (inherit (x) a b), as are let-inherit, nested definitions and inherited attribute names (C28_*_violated)."
 ],
 "C29": [
  "proved",
  "For every node of the tree of every source."
 ],
 "C30": [
  "proved",
  "For documents of less than 2 GiB (positions and lengths are 32 bit). Lengths are sent in bytes instead of UTF-16 units: C30_length_violated; equal for ASCII."
 ],
 "C31": [
  "partial",
  "The ranges are characterised exactly (C31_exact). Violated: defaults of formals and interpolations are not visited."
 ],
 "C32": [
  "partial",
  "Bound of 30 for every request (C32_bound). Variables: exact for every source (C32_variable, C62_variable). Select expressions: C65. Options: exact if no provider has more than 30 matches (C32_options_partial); otherwise violated, the worker cuts at 30 without a mark (C32_options_violated). Without a nixpkgs worker, and at `config`, the behaviour is undefined (C32_no_worker_violated, C32_config_violated)."
 ],
 "C33": [
  "proved",
  "For all texts, the escaped text between quotes denotes the text by the rules of Nix, wherever it is written; a string node of the parser that starts there has this value and ends with the closing quote. That the parser makes a string node at this place is not part of the theorem."
 ],
 "C34": [
  "partial",
  "Violated for texts in which an odd number of single quotes is followed by the end or by `${`. Proved for all other texts. Removal of indentation is not modelled."
 ],
 "C35": [
  "proved",
  "For all names: exactly the identifiers that are no reserved words (and not true, false, null) are written without quotes, and these are read as one identifier token with this spelling; all others are written as a string that denotes the name."
 ],
 "C36": [
  "partial",
  "The action is offered exactly for selected non-empty arrays and objects within the limits (C36_offered, C36_limits); the text is an expression of the grammar of C68 that denotes the value, wherever it is written, if no array has a negative element, no integer is -2^63 and other numbers are printed as floats of Nix (C36_partial). Violated otherwise (witnesses). llvm::json::parse is a parameter; numbers that are not integers are represented by their printed text."
 ],
 "C37": [
  "partial",
  "Packing one binding: for every document without syntax errors the new document is the old one with `a.b.c = v` replaced by `a = { b.c = v; }` (C37_pack, C37_pack_offered). Flattening likewise (C37_flatten, C37_flatten_all), if the paths are names with dots in between. Packing all bindings of a name likewise, also recursively, if they come one after the other (C37_pack_all, C37_pack_recursive). When the actions are offered is proved exactly (C37_flatten_when, C37_pack_when). The text that packing recursively writes is read as a set of exactly the attributes with their names and values, if none is inherited or dynamic (C37_nested). Violated: packing several bindings removes bindings in between, packs a binding of the name itself too deep, drops rec, inherit sources, dynamic attributes and what is nested more than a hundred sets deep."
 ],
 "C38": [
  "partial",
  "Proved: when it is offered, the exact edit, and what each variable of the body and of the set refers to afterwards. For documents without syntax errors, the new document is the old one with the with replaced by this let, if the text in front of it ends in white space, a bracket, a semicolon or a quote (C38_text, C38_action). Violated if there is an outer with, or if the set uses a name it gives."
 ],
 "C39": [
  "partial",
  "For every document without syntax errors: `x = x` becomes `inherit x` (C39_variable), `x = e.a.x` becomes `inherit (e.a) x` (C39_select), and back (C39_explicit, C39_explicit_from), with nothing else changed, under the stated conditions on the neighbouring text. Violated in recursive sets, for quoted names, for sources in parentheses, for numbers and for `or`."
 ],
 "C40": [
  "partial",
  "Proved: which names are passed, that the function and the call agree on them, that the file name is fresh and safe; for documents without syntax errors, that the new file has none and is the expression or a function that gives it, and that the new document is the old one with the import in its place, for functions, conditionals, assertions, with, let and all values of bindings, if the text around it fits (C40_action). Violated for inherit, for a with inside of the expression, for arguments of calls, and with the cursor on the name of a binding."
 ],
 "C41": [
  "proved",
  "Suppressed set, published list, content, and state after any history."
 ],
 "C42": [
  "proved",
  "The server's test is exact, and the actions are exactly those of the touching diagnostics, in order."
 ],
 "C43": [
  "partial",
  "For documents without syntax errors, the change is made to the nearest function, its formals do not have the name yet, and the new document is the old one with exactly this name added, before the ellipsis if there is one (C43_action, C43_insertion). Violated after a trailing comma, for a comma in front of a lone ellipsis, and after a default that is a URI. Missing: defaults with a colon in them that end in a word or a brace, and documents with syntax errors."
 ],
 "C44": [
  "proved",
  "The outline is characterised exactly (C44_exact); each reached set has one symbol per attribute (C44_attributes); selection ranges lie in the ranges. Sets in the expression of `inherit (e) a b` are listed once per name (C44_twice_violated), sets in interpolations not at all."
 ],
 "C45": [
  "partial",
  "The path is characterised at every node (C45_name, C45_dot, C45_set, C45_elsewhere, C45_inherit), `config` is left out once (C45_options), and no assertion fails unless the cursor is inside the expression of an attribute name (C45_total). Violated: an assertion fails there (C45_crash_violated), selections in values count as nesting (C45_select_violated), sets in parentheses do not (C45_paren_violated)."
 ],
 "C46": [
  "proved",
  "For every source the parser ends (recursion depth at most length + 3), consumes the tokens in order skipping only trivia, and either reaches the end or reports unexpected text."
 ],
 "C47": [
  "partial",
  "For trees in which the options of a submodule do not themselves look like a type or a submodule (`Sane`): every answer, also after other queries that assign to the tree, is what the path leads to. Without that the second answer can differ from the first (C47_repeated_violated). Evaluation is taken to succeed."
 ],
 "C48": [
  "partial",
  "Ranges and identifiers hold for every source. Nesting is violated at the keyword let (witnesses); everything else nests."
 ],
 "C49": [
  "partial",
  "Two witnesses: `{ inherit \"a\"; }` and adjacent path interpolations."
 ],
 "C50": [
  "proved",
  "All cursors of all parser diagnostics, notes and fixes are correct positions of the source."
 ],
 "C51": [
  "partial",
  "rec sets: exact for every program. `let { }` is treated as a rec set, and its fix removes `let` (witness)."
 ],
 "C52": [
  "partial",
  "Which diagnostics are given, with their fixes, is characterised for every program. The code goes by the name `builtins` alone: it reports attributes of a local variable of that name, and removes the prefix where the name is captured (witnesses)."
 ],
 "C53": [
  "partial",
  "Exact: right iff the characters of the line in front of the cursor are ASCII. Otherwise violated (C53_wrong_variable_violated): another variable may be taken."
 ],
 "C54": [
  "partial",
  "Proved for all nodes not below an inherit; below inherit the code violates it (C54_*_violated)."
 ],
 "C55": [
  "proved",
  "For all literals of all parsed files."
 ],
 "C56": [
  "partial",
  "Violated: in `\"$$${a}\"` the parser finds no interpolation. The exact rules the code follows are proved for C17 and C18."
 ],
 "C57": [
  "partial",
  "The new string has the recorded text. For every document without syntax errors: the rewritten document is read as before, also with interpolations, unless a fragment in front of another ends in a dollar sign (C57_double), or if the fragments have no dollar signs and quotes (C57_indented). Violated for escaped dollar signs next to interpolations, escape sequences of indented strings, texts with lone quotes, and strings that touch a word."
 ],
 "C58": [
  "partial",
  "The tokens are characterised exactly (C58_exact) and have the right class (C58_variable). Violated: variables in interpolations, inherit, defaults of formals and attribute paths get none."
 ],
 "C59": [
  "partial",
  "The links are characterised exactly. Violated: paths inside a path get no link."
 ],
 "C60": [
  "partial",
  "Violated for positions in column 0; proved for all others."
 ],
 "C61": [
  "partial",
  "Violated: the symbol of `a` in `{ a.b = 1; }` has the range of the name."
 ],
 "C62": [
  "partial",
  "The candidates are exact for every variable of every source. A name bound in two scopes is offered twice (C62_once_violated)."
 ],
 "C63": [
  "partial",
  "Exact for every variable of every source, with the outermost `with`; no assertion fails. Violated: the outermost `with` is taken instead of the innermost (C63_innermost_violated)."
 ],
 "C64": [
  "partial",
  "Proved for names without `$` and `\\`. Violated for names with these (snippets) and for names that need quotes."
 ],
 "C65": [
  "partial",
  "Proved at the last name and at a dot after it, for every source. Violated in the middle of a path, at dots inside it, and at the first dot."
 ],
 "C66": [
  "partial",
  "Violated: fixes of suppressed diagnostics are offered."
 ],
 "C67": [
  "partial",
  "For every document without syntax errors: quoting replaces exactly the name by a string of the same characters (C67_quote), and unquoting the string by the name, if nothing touches it (C67_unquote). Violated if something touches the name."
 ],
 "C68": [
  "partial",
  "No syntax error is reported exactly for the expressions of the grammar that nixd accepts and for empty sources (C68_sound, C68_complete, C68_iff), the tree is the abstract syntax of the expression, and the grammar is unambiguous. Violated where this grammar is not that of Nix: `a ?`, empty documents, leading commas, calls of sets (witnesses)."
 ],
 "C69": [
  "partial",
  "Definitions of variables, with, select expressions, path literals and options are exact, as is the reading of positions (C69_position). Violated: line numbers of nixpkgs are one too large; unreadable positions and names in dynamic inherits end the server; without a nixpkgs worker a null pointer is dereferenced."
 ],
 "C70": [
  "partial",
  "The texts and ranges for variables, select expressions and options are exact. Violated: options need a nixpkgs worker, a local variable lib is taken for that of nixpkgs, a long description needs a short one."
 ],
 "C71": [
  "partial",
  "The hints are exactly those of the variables below some `with pkgs`. Violated: variables with a binder or from a nearer with get hints; no worker for nixpkgs is a null pointer."
 ],
 "C72": [
  "proved",
  "For documents whose tree is not odd (no `?` without a path and no path with the text `${`, neither of which Nix allows)."
 ],
 "C73": [
  "proved",
  "For documents whose tree is not odd; the boundary conditions are stated in the theorem and are satisfied by every text in parentheses, brackets or double quotes. Expressions that are called may only be replaced by ones that nixd allows to call. The value of a binding may be replaced by any expression (C73_value)."
 ],
 "C74": [
  "partial",
  "Proved: under every schedule the stored analysis is current, everything ends without deadlock, a message handled alone is the atomic step of C05/C41; the client is up to date if the republishing loop does not overlap the unlocked part of a document update (or if every update publishes under the lock), and after any later configuration job that does not overlap. Violated otherwise: stale diagnostics, suppressed kinds shown, and an older configuration may win."
 ],
 "C75": [
  "partial",
  "Proved for every program and schedule: a reply is the one for the output and status of the formatter; if it reads the whole document and its output fits into the pipes every schedule ends with the reply. Violated: output larger than the pipe never gets a reply, a formatter that does not read everything can kill the server, a closed document is undefined behaviour, two descriptors leak per request."
 ],
 "C76": [
  "partial",
  "Proved for all threads, handlers and schedules: the mutexes are taken in one order, no deadlock if the workers answer, every schedule is bounded and can be completed. Violated when a worker exits with a pending request: the requests waiting for it keep OptionsLock, then the configuration job keeps ConfigLock, and these threads never go on; a worker that has exited is never detected. Not modelled: the fixed number of threads of the pool."
 ],
 "C77": [
  "partial",
  "Proved for all heaps, paths and request sequences: the replies about packages and names, the replies about options when the positions of the declarations can be read, the names in completions, and that a worker with an evaluated expression answers every request. Violated for an option with a null entry in declarationPositions, which also fails the completion of the whole scope, and when the first expression could not be evaluated: the next request ends the process. Evaluation that does not end is not modelled."
 ],
 "C78": [
  "partial",
  "Proved for all JSON values and sequences of replies: what is accepted, and which configuration each part in effect comes from. Violated: removed options and packages stay in use; null for one part rejects all parts; everything but the formatting command given on the command line has no effect; an empty array as reply is undefined behaviour. Reading JSON text is not modelled."
 ],
 "C79": [
  "partial",
  "Proved for all requests and replies with UTF-8 strings and files that have a URI (C08). Violated for other strings, and for a declaration whose file is not a string: the whole reply is refused. The text of JSON values (LLVM) is not modelled."
 ],
 "C80": [
  "partial",
  "Proved for all inputs whose diagnostics have UTF-8 strings, with a reader of JSON written independently; inputs of ASCII characters are among them (C80_ascii). Violated for other inputs: the JSON library throws and the process is aborted. That all UTF-8 inputs have UTF-8 strings in their diagnostics is not proved. The serializer of nlohmann::json is modelled by its documentation."
 ],
 "C81": [
  "partial",
  "The reports are proved exact for all documents. The fix is proved for all documents without syntax errors if the contents end at the closing parenthesis and do not touch what is before or after them, and if they are not called or may be called. Violated otherwise: contents that touch their neighbours are read together with them, and called sets become syntax errors. White space in front of the closing parenthesis is not covered."
 ],
 "C82": [
  "partial",
  "Proved for documents without syntax errors, if the text that moves to the front of the edited place does not run into what is before it, and for `builtins.x` with an identifier and no default. The fix for unused bindings removes exactly one binding (C82_unused). Violated for quoted names, for bindings that touch `let`, for selections with a default, and for inherited names that get the prefix `builtins.`. The insertion of `builtins.` in front of a variable puts the variable below `builtins` and keeps the names selected from it (C82_insert)."
 ],
 "C83": [
  "proved",
  "For documents whose tree is not odd; the boundary conditions are stated in the theorem, as for C73. Used for flattening and packing several bindings (C37) and for removing unused ones (C82)."
 ],
 "C84": [
  "partial",
  "The descriptors of the child (C84_child) and of the parent (C84_parent) are exact, and AutoCloseFD closes every number once under all programs (C84_owned, C84_once, C84_all). Violated by the code: the output is returned in the place of the errors (C84_errors_violated), so it is closed twice (C84_twice_violated, C84_stolen_violated) and the end of the error pipe stays open (C84_kept_violated, C84_limit_violated); later workers inherit the input of earlier ones (C84_inherited_violated); descriptors stay open when an exception is thrown (C84_throw_violated)."
 ],
 "C85": [
  "partial",
  "Proved: what is announced is registered (C85_announced), the session goes on (C85_continues), exit ends it (C85_exit). Violated: the exit code is always 0 (C85_exit_code_violated), requests are served in every phase (C85_order_violated), didSave is announced and ignored (C85_save_violated)."
 ],
 "C86": [
  "partial",
  "Proved: one beginning, at most one end, in this order and with one token, exactly if the call is completed (C86_paired), the end when the worker answers (C86_answered), nothing without the capability (C86_unknown). Violated: no end when the worker exits (C86_exited_violated), the client is not waited for (C86_create_violated), tokens may coincide (C86_token_violated)."
 ],
 "C87": [
  "partial",
  "Proved: exact decoding (C87_open, C87_change, C87_close), URIs (C87_names), and the texts after any session from the JSON messages on (C87_text). Violated: a change that cannot be decoded is ignored and the old text kept (C87_ignored_violated), documents that are not files (C87_scheme_violated), URIs with `localhost` (C87_host_violated)."
 ],
 "C88": [
  "partial",
  "Proved: what is sent (C88_sent_partial, C88_list_partial), resolving items without data (C88_same_partial) and packages (C88_package_partial). Violated: empty documentation is sent as null (C88_documentation_violated), a resolved package has the format 5 (C88_format_violated), kind and format of an item without a kind are uninitialised (C88_kind_violated), and undefined behaviour for documentation that is a string, for parameters that are no object and without a worker (C88_undefined_violated)."
 ],
 "C89": [
  "partial",
  "Proved: what is sent (C89_fix, C89_edit, C89_extract), resolving (C89_same_partial for actions that edit one document, C89_open), and when which page is offered (C89_offered, C89_complete for identifiers, C89_distinct_partial, C89_url_partial). Violated: resolving the action that moves an expression to a file loses its edit (C89_extract_violated), names are not escaped in the URL (C89_escape_violated), other values named lib and the default of an attribute (C89_lib_violated)."
 ],
 "C90": [
  "partial",
  "Proved: which parameters are understood and as what (C90_place, C90_document, C90_part, C90_rename, C90_completion, C90_action_partial), what is sent (C90_published with C90_built, C90_hover with C90_hover_text, C90_highlight, C90_link, C90_hint, C90_tokens, C90_symbols, C90_fold, C90_definition, C90_references, C90_renamed) and that diagnostics come back (C90_back). Violated: a request for actions fails if a diagnostic of another server has a number as its code (C90_code_violated), the wish for the declaration is ignored (C90_declaration_violated), names of symbols can be white space (C90_name_violated)."
 ],
 "C91": [
  "partial",
  "Proved: `initialize` succeeds for every object (C91_always); exactly when a capability is known (C91_early, C91_middle, C91_late, C91_objects, C91_formats, C91_kinds); the other members (C91_members); progress, configuration and snippets only for editors that say so (C91_progress, C91_configuration, C91_snippets); all kinds of completion items are known to every editor (C91_item_kinds); another `initialize` replaces what is known (C91_again). Violated: a member of a wrong type loses all capabilities after it (C91_lost_violated); kinds of symbols, hierarchies, formats of texts, code actions and the preparation of renames do not depend on what the editor says (C91_symbol_kinds_violated, C91_hierarchy_violated, C91_markdown_violated, C91_commands_violated, C91_prepare_violated)."
 ],
 "C92": [
  "partial",
  "Proved: which files give a message, which message, and how much is read (C92_blocks); files without a whole block (C92_unfinished); all messages of a file in order (C92_file); a block that is not JSON ends the test (C92_malformed); a block of Nix opens its document (C92_opens). Violated: white space at the end of a document and lines that begin with three backquotes cannot be written (C92_end_violated, C92_fence_violated); a block whose end is the last line of the file, without a newline, is lost (C92_last_line_violated); lines of JSON are joined so that numbers run together (C92_joined_violated)."
 ],
 "C93": [
  "proved",
  "Formatting reads out of bounds exactly if arguments are missing (C93_reads); every diagnostic and note of every source is formatted with an argument for each place (C93_parse, C93_lookup); the published notification carries these texts (C93_published, for arguments that are UTF-8; C93_ascii, for all sources of ASCII characters)."
 ],
 "C94": [
  "partial",
  "Proved: the tokens are exactly the search paths and the search paths with a slash before `>`, each with its whole text (C94_token_partial); every other `<` is an operator (C94_operator). Violated: with the slash it is no search path of Nix, and every one of them is accepted (C94_slash_violated)."
 ],
 "C95": [
  "proved",
  "A token is a URI with text v and rest r exactly if the remaining text is v followed by r, v is a URI of Nix, and r does not begin with a URI character (C95_token)."
 ]
}
