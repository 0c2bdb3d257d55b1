{
 "claims": [
  {
   "property": "C01",
   "status": "proved",
   "theorems": [
    "Verif.Props.C01_offsetToPosition_spec",
    "Verif.Props.C01_offset_past_end"
   ],
   "note": "For every scalar-value list and every character boundary; offsets past the end are clamped."
  },
  {
   "property": "C02",
   "status": "proved",
   "theorems": [
    "Verif.Props.C02_offset_position_offset",
    "Verif.Props.C02_position_offset_position",
    "Verif.Props.C02_position_injective"
   ],
   "note": "Both directions, and injectivity of positions."
  },
  {
   "property": "C03",
   "status": "partial",
   "theorems": [
    "Verif.Props.C03_in_bounds",
    "Verif.Props.C03_rejects_bad_line_or_negative",
    "Verif.Props.C03_accepted_iff_boundary_partial",
    "Verif.Props.C03_column_truncation_violated"
   ],
   "note": "In-bounds for all bytes and positions; exact acceptance on valid UTF-8 for columns below 2^31. Columns are truncated to 32 bits by the code, which violates the rejection claim beyond that: C03_column_truncation_violated."
  },
  {
   "property": "C04",
   "status": "proved",
   "theorems": [
    "Verif.Props.C04_full_change",
    "Verif.Props.C04_accepted_is_splice",
    "Verif.Props.C04_valid_change_accepted",
    "Verif.Props.C04_length_mismatch_refused"
   ],
   "note": "Accepted changes splice, valid changes are accepted, mismatching lengths are refused."
  },
  {
   "property": "C05",
   "status": "proved",
   "theorems": [
    "Verif.Props.C05_server_text_is_client_text",
    "Verif.Props.C05_analysis_is_of_current_text",
    "Verif.Props.C05_failed_change_drops",
    "Verif.Props.C05_frame"
   ],
   "note": "All histories over any number of files, by a refinement invariant."
  },
  {
   "property": "C06",
   "status": "partial",
   "theorems": [
    "Verif.Props.C06_increment_partial",
    "Verif.Props.C06_increment_violated",
    "Verif.Props.C06_versions_repeat",
    "Verif.Props.C06_first_version",
    "Verif.Props.C06_client_version_kept"
   ],
   "note": "The code violates the property: the carry loop never moves left (C06_increment_violated, C06_versions_repeat). Proved for versions whose last digit is not 9, first version and client versions."
  },
  {
   "property": "C07",
   "status": "proved",
   "theorems": [
    "Verif.Props.C07_decode_encode",
    "Verif.Props.C07_encode_injective",
    "Verif.Props.C07_encode_wellFormed",
    "Verif.Props.C07_plain_kept",
    "Verif.Props.C07_decode_any"
   ],
   "note": "All byte strings."
  },
  {
   "property": "C08",
   "status": "partial",
   "theorems": [
    "Verif.Props.C08_parse_toString",
    "Verif.Props.C08_file_roundtrip_partial",
    "Verif.Props.C08_backslash_violated",
    "Verif.Props.C08_drive_violated",
    "Verif.Props.C08_net_root_assertion"
   ],
   "note": "URI print/parse round trip proved for all printable URIs; path round trip proved except for the two cases where the code breaks it (backslash in a POSIX path, /X: paths), which have witnesses; a bare //net path fails an assertion."
  },
  {
   "property": "C09",
   "status": "partial",
   "theorems": [
    "Verif.Props.C09_exactly_once",
    "Verif.Props.C09_pending_bounded_distinct",
    "Verif.Props.C09_reply_matches_partial",
    "Verif.Props.C09_eviction_of_oldest",
    "Verif.Props.C09_reply_completes",
    "Verif.Props.C09_negative_id_violated"
   ],
   "note": "Exactly-once accounting, bound, distinct ids, eviction of the oldest and completion by the matching reply proved over all histories. Ids below -2^31 in a reply are compared modulo 2^32 by the code (C09_negative_id_violated)."
  },
  {
   "property": "C10",
   "status": "partial",
   "theorems": [
    "Verif.Props.C10_notification",
    "Verif.Props.C10_request",
    "Verif.Props.C10_unknown_request_violated",
    "Verif.Props.C10_response_continues",
    "Verif.Props.C10_string_id_response_violated",
    "Verif.Props.C10_session_end_partial",
    "Verif.Props.C10_reply_has_request_id"
   ],
   "note": "Routing proved for every message and state; the code violates the claim for unknown requests (session ends, no reply) and responses with non-integer ids (exception). At-most-one reply is proved relative to handlers answering at most once."
  },
  {
   "property": "C11",
   "status": "partial",
   "theorems": [
    "Verif.Props.C11_read_frame",
    "Verif.Props.C11_roundtrip_partial",
    "Verif.Props.C11_other_headers_ignored",
    "Verif.Props.C11_hangup_loses_messages_violated",
    "Verif.Props.C11_bad_length_is_empty_body",
    "Verif.Props.C11_dispatched",
    "Verif.Props.C11_malformed_violated"
   ],
   "note": "Round trip proved for all sequences of bodies and all read schedules while the pipe stays open; if the writer hangs up, messages in the pipe are lost (C11_hangup_loses_messages_violated). What can be parsed is handed on as it is (C11_dispatched); a message that is no JSON ends the session (C11_malformed_violated)."
  },
  {
   "property": "C12",
   "status": "partial",
   "theorems": [
    "Verif.Props.C12_in_bounds_partial",
    "Verif.Props.C12_past_end_violated",
    "Verif.Props.C12_progress",
    "Verif.Props.C12_eof",
    "Verif.Props.C12_eof_reached",
    "Verif.Props.C12_finite"
   ],
   "note": "In bounds exactly except for a lone trailing backslash inside a string (violation proved); progress, termination and finiteness proved for every context. Missing: in-bounds at the two violating inputs, where the code is wrong."
  },
  {
   "property": "C13",
   "status": "proved",
   "theorems": [
    "Verif.Props.C13_tiles",
    "Verif.Props.C13_no_trivia_in_strings",
    "Verif.Props.C13_trivia_exact",
    "Verif.Props.C13_concat",
    "Verif.Props.C13_range_is_text"
   ],
   "note": "Tiling for every sequence of lexing contexts, ranges delimit token texts for every reachable state; runs that stop at the C12 violation are excluded by hypothesis."
  },
  {
   "property": "C14",
   "status": "proved",
   "theorems": [
    "Verif.Props.C14_cursors"
   ],
   "note": "Every cursor (state, tokens, diagnostics, notes, fixes) in every reachable lexer state."
  },
  {
   "property": "C15",
   "status": "partial",
   "theorems": [
    "Verif.Props.C15_word",
    "Verif.Props.C15_path_or_uri",
    "Verif.Props.C15_word_only",
    "Verif.Props.C15_int",
    "Verif.Props.C15_float_partial",
    "Verif.Props.C15_float_without_integer_part_violated",
    "Verif.Props.C15_punctuation",
    "Verif.Props.C15_or_pipe_violated",
    "Verif.Props.C15_longest"
   ],
   "note": "Words, keywords, integers, paths, URIs, punctuation and maximal munch proved. Floats without integer part (.5) and |||> are violations (proved)."
  },
  {
   "property": "C16",
   "status": "partial",
   "theorems": [
    "Verif.Props.C16_unique",
    "Verif.Props.C16_grouping_partial",
    "Verif.Props.C16_operand_partial",
    "Verif.Props.C16_division_violated",
    "Verif.Props.C16_pipe_violated",
    "Verif.Props.C16_not_update_violated",
    "Verif.Props.C16_negate_has_violated",
    "Verif.Props.C16_has_has_violated",
    "Verif.Props.C16_document"
   ],
   "note": "For every call of the operator parser: the order of the items is kept, the tree follows the table if the items avoid /, pipes, ! with //, unary minus with ? and ? ?, and an operator is reported as not associative only if no grouping exists. The five deviations have witnesses. In documents without syntax errors every operator expression that avoids these is grouped according to the table, whatever it is inside of (C16_document)."
  },
  {
   "property": "C17",
   "status": "proved",
   "theorems": [
    "Verif.Props.C17_text",
    "Verif.Props.C17_pieces"
   ],
   "note": "For every double-quoted string of every parsed file: if the text between the quotes denotes t without interpolation (backslash escapes replaced, all other bytes kept), then t is what is recorded and the range ends with the closing quote. For strings with interpolations the recorded pieces are exactly those of the rules the code follows."
  },
  {
   "property": "C18",
   "status": "partial",
   "theorems": [
    "Verif.Props.C18_pieces",
    "Verif.Props.C18_partial",
    "Verif.Props.C18_violated"
   ],
   "note": "Violated: every escape sequence of an indented string is recorded as a single quote. Proved: the exact rules by which all indented strings are read, and that strings without escape sequences are recorded as they are."
  },
  {
   "property": "C19",
   "status": "proved",
   "theorems": [
    "Verif.Props.C19_exact",
    "Verif.Props.C19_first",
    "Verif.Props.C19_complete",
    "Verif.Props.C19_dynamic",
    "Verif.Props.C19_empty"
   ],
   "note": "In every set of every parsed file the entry at a static path is exactly what the bindings give together (paths create sets, two sets at the end of a path are merged one level deep, the first binding wins); without clashes it is what the first binding for the path gives; nothing that does not clash is lost; bindings that begin with a dynamic name are all kept in order."
  },
  {
   "property": "C20",
   "status": "partial",
   "theorems": [
    "Verif.Props.C20_exact",
    "Verif.Props.C20_pairwise",
    "Verif.Props.C20_merge_rec",
    "Verif.Props.C20_dynamic_names_violated",
    "Verif.Props.C20_static_names",
    "Verif.Props.C20_document",
    "Verif.Props.C20_document_pairwise",
    "Verif.Props.C20_document_rec"
   ],
   "note": "The duplicated-attribute errors in the list of every parsed document are exactly those of the clashes of a binding with what is bound before it in one of the sets of its tree, and there is one exactly if a binding clashes with an earlier one; the error about merging a recursive with another set is in the list exactly if this happens. Violated for names that Nix considers static and nixd does not (`\"\"` and `${\"a\"}`)."
  },
  {
   "property": "C21",
   "status": "proved",
   "theorems": [
    "Verif.Props.C21_kept_once",
    "Verif.Props.C21_reports",
    "Verif.Props.C21_argument",
    "Verif.Props.C21_document",
    "Verif.Props.C21_document_members",
    "Verif.Props.C21_document_argument"
   ],
   "note": "For all lists of formals the semantic action keeps the first formal with each name. The errors in the list of every parsed document are exactly those of the lists of formals and the arguments of its tree: the later formals of a name, the clashes with the argument name, ellipses that are not last, missing separators and empty formals."
  },
  {
   "property": "C22",
   "status": "proved",
   "theorems": [
    "Verif.Props.C22_terminates",
    "Verif.Props.C22_innermost_binder",
    "Verif.Props.C22_builtin_otherwise",
    "Verif.Props.C22_defined_only",
    "Verif.Props.C22_uses_exact"
   ],
   "note": "Every program: each variable gets its innermost binder, a builtin only if there is none, the recorded uses are exact, and the analysis finishes. Nodes of a parsed tree are proved to have distinct identities."
  },
  {
   "property": "C23",
   "status": "proved",
   "theorems": [
    "Verif.Props.C23_from_with_iff",
    "Verif.Props.C23_candidates",
    "Verif.Props.C23_no_candidates",
    "Verif.Props.C23_definition_is_outermost"
   ],
   "note": "Every program: from `with` iff free, not builtin and enclosed by one; all enclosing ones are recorded, innermost first. The definition that is returned is that of the outermost one (proved)."
  },
  {
   "property": "C24",
   "status": "proved",
   "theorems": [
    "Verif.Props.C24_undefined_exact",
    "Verif.Props.C24_needs_prefix_exact",
    "Verif.Props.C24_assertions",
    "Verif.Props.C24_internal_builtin_violated"
   ],
   "note": "Every program: exact, with the arguments of the diagnostic. The name of an internal builtin fails an assertion (witness and exact condition proved)."
  },
  {
   "property": "C25",
   "status": "partial",
   "theorems": [
    "Verif.Props.C25_fix",
    "Verif.Props.C25_fix_complete",
    "Verif.Props.C25_unused_sound",
    "Verif.Props.C25_unused_complete",
    "Verif.Props.C25_with_exact",
    "Verif.Props.C25_lambda_arg_violated"
   ],
   "note": "let bindings, formals, arguments with formals and `with`: exact for every program. Unused arguments without formals are never reported (witness)."
  },
  {
   "property": "C26",
   "status": "proved",
   "theorems": [
    "Verif.Props.C26_root",
    "Verif.Props.C26_parent",
    "Verif.Props.C26_unique",
    "Verif.Props.C26_only",
    "Verif.Props.C26_isRoot",
    "Verif.Props.C26_isRoot_outside",
    "Verif.Props.C26_up",
    "Verif.Props.C26_upExpr"
   ],
   "note": "For the tree of every source. The keyword `let` is a child of two nodes; the theorems say which of them is its parent."
  },
  {
   "property": "C27",
   "status": "proved",
   "theorems": [
    "Verif.Props.C27_none",
    "Verif.Props.C27_found",
    "Verif.Props.C27_innermost",
    "Verif.Props.C27_complete"
   ],
   "note": "For the tree of every source the result contains the range and no child of it does, and something is found iff the root contains the range. Where ranges touch, the first child is taken."
  },
  {
   "property": "C28",
   "status": "partial",
   "theorems": [
    "Verif.Props.C28_sound",
    "Verif.Props.C28_variable",
    "Verif.Props.C28_builtin_refused",
    "Verif.Props.C28_with_refused",
    "Verif.Props.C28_undefined_refused",
    "Verif.Props.C28_definition",
    "Verif.Props.C28_each_once_violated",
    "Verif.Props.C28_let_inherit_violated",
    "Verif.Props.C28_nested_definition_violated",
    "Verif.Props.C28_inherit_attribute_violated"
   ],
   "note": "For every cursor: edits are exactly one binder's definition and the variables referring to it, completeness from uses, definitions and inherited names; builtins, with-names and undefined names are refused. 'Each once' is violated (inherit (x) a b), as are let-inherit, nested definitions and inherited attribute names (C28_*_violated)."
  },
  {
   "property": "C29",
   "status": "proved",
   "theorems": [
    "Verif.Props.C29_agree",
    "Verif.Props.C29_domain"
   ],
   "note": "For every node of the tree of every source."
  },
  {
   "property": "C30",
   "status": "proved",
   "theorems": [
    "Verif.Props.C30_decode",
    "Verif.Props.C30_document",
    "Verif.Props.C30_length_partial",
    "Verif.Props.C30_length_violated"
   ],
   "note": "For documents of less than 2 GiB (positions and lengths are 32 bit). Lengths are sent in bytes instead of UTF-16 units: C30_length_violated; equal for ASCII."
  },
  {
   "property": "C31",
   "status": "partial",
   "theorems": [
    "Verif.Props.C31_exact",
    "Verif.Props.C31_multi_line",
    "Verif.Props.C31_unvisited_violated"
   ],
   "note": "The ranges are characterised exactly (C31_exact). Violated: defaults of formals and interpolations are not visited."
  },
  {
   "property": "C32",
   "status": "partial",
   "theorems": [
    "Verif.Props.C32_variable",
    "Verif.Props.C32_bound",
    "Verif.Props.C32_options_partial",
    "Verif.Props.C32_no_worker_violated",
    "Verif.Props.C32_config_violated",
    "Verif.Props.C32_options_violated"
   ],
   "note": "Bound of 30 for every request (C32_bound). Variables: exact for every source (C32_variable, C62_variable). Select expressions: C65. Options: exact if no provider has more than 30 matches (C32_options_partial); otherwise violated, the worker cuts at 30 without a mark (C32_options_violated). Without a nixpkgs worker, and at `config`, the behaviour is undefined (C32_no_worker_violated, C32_config_violated)."
  },
  {
   "property": "C33",
   "status": "proved",
   "theorems": [
    "Verif.Props.C33_denotes",
    "Verif.Props.C33_parsed"
   ],
   "note": "For all texts, the escaped text between quotes denotes the text by the rules of Nix, wherever it is written; a string node of the parser that starts there has this value and ends with the closing quote. That the parser makes a string node at this place is not part of the theorem."
  },
  {
   "property": "C34",
   "status": "partial",
   "theorems": [
    "Verif.Props.C34_partial",
    "Verif.Props.C34_violated"
   ],
   "note": "Violated for texts in which an odd number of single quotes is followed by the end or by `${`. Proved for all other texts. Removal of indentation is not modelled."
  },
  {
   "property": "C35",
   "status": "proved",
   "theorems": [
    "Verif.Props.C35_identifier",
    "Verif.Props.C35_quoted",
    "Verif.Props.C35_unquoted_iff"
   ],
   "note": "For all names: exactly the identifiers that are no reserved words (and not true, false, null) are written without quotes, and these are read as one identifier token with this spelling; all others are written as a string that denotes the name."
  },
  {
   "property": "C36",
   "status": "partial",
   "theorems": [
    "Verif.Props.C36_limits",
    "Verif.Props.C36_partial",
    "Verif.Props.C36_offered",
    "Verif.Props.C36_negative_violated",
    "Verif.Props.C36_smallest_violated",
    "Verif.Props.C36_exponent_violated",
    "Verif.Props.C36_infinite_violated"
   ],
   "note": "The action is offered exactly for selected non-empty arrays and objects within the limits (C36_offered, C36_limits); the text is an expression of the grammar of C68 that denotes the value, wherever it is written, if no array has a negative element, no integer is -2^63 and other numbers are printed as floats of Nix (C36_partial). Violated otherwise (witnesses). llvm::json::parse is a parameter; numbers that are not integers are represented by their printed text."
  },
  {
   "property": "C37",
   "status": "partial",
   "theorems": [
    "Verif.Props.C37_flatten_all",
    "Verif.Props.C37_pack_all",
    "Verif.Props.C37_pack_recursive",
    "Verif.Props.C37_unrelated_violated",
    "Verif.Props.C37_whole_violated",
    "Verif.Props.C37_rec_violated",
    "Verif.Props.C37_inherit_violated",
    "Verif.Props.C37_dynamic_violated",
    "Verif.Props.C37_flatten_when",
    "Verif.Props.C37_pack_when",
    "Verif.Props.C37_nested",
    "Verif.Props.C37_depth_violated",
    "Verif.Props.C37_pack",
    "Verif.Props.C37_pack_offered",
    "Verif.Props.C37_flatten"
   ],
   "note": "Packing one binding: for every document without syntax errors the new document is the old one with `a.b.c = v` replaced by `a = { b.c = v; }` (C37_pack, C37_pack_offered). Flattening likewise (C37_flatten, C37_flatten_all), if the paths are names with dots in between. Packing all bindings of a name likewise, also recursively, if they come one after the other (C37_pack_all, C37_pack_recursive). When the actions are offered is proved exactly (C37_flatten_when, C37_pack_when). The text that packing recursively writes is read as a set of exactly the attributes with their names and values, if none is inherited or dynamic (C37_nested). Violated: packing several bindings removes bindings in between, packs a binding of the name itself too deep, drops rec, inherit sources, dynamic attributes and what is nested more than a hundred sets deep."
  },
  {
   "property": "C38",
   "status": "partial",
   "theorems": [
    "Verif.Props.C38_outer_violated",
    "Verif.Props.C38_capture_violated",
    "Verif.Props.C38_offered",
    "Verif.Props.C38_edit",
    "Verif.Props.C38_body_partial",
    "Verif.Props.C38_set_partial",
    "Verif.Props.C38_text",
    "Verif.Props.C38_word",
    "Verif.Props.C38_word_inherited",
    "Verif.Props.C38_action"
   ],
   "note": "Proved: when it is offered, the exact edit, and what each variable of the body and of the set refers to afterwards. For documents without syntax errors, the new document is the old one with the with replaced by this let, if the text in front of it ends in white space, a bracket, a semicolon or a quote (C38_text, C38_action). Violated if there is an outer with, or if the set uses a name it gives."
  },
  {
   "property": "C39",
   "status": "partial",
   "theorems": [
    "Verif.Props.C39_recursive_violated",
    "Verif.Props.C39_quoted_violated",
    "Verif.Props.C39_parentheses_violated",
    "Verif.Props.C39_variable",
    "Verif.Props.C39_select",
    "Verif.Props.C39_explicit",
    "Verif.Props.C39_explicit_from",
    "Verif.Props.C39_number_violated",
    "Verif.Props.C39_or_violated"
   ],
   "note": "For every document without syntax errors: `x = x` becomes `inherit x` (C39_variable), `x = e.a.x` becomes `inherit (e.a) x` (C39_select), and back (C39_explicit, C39_explicit_from), with nothing else changed, under the stated conditions on the neighbouring text. Violated in recursive sets, for quoted names, for sources in parentheses, for numbers and for `or`."
  },
  {
   "property": "C40",
   "status": "partial",
   "theorems": [
    "Verif.Props.C40_inherit_violated",
    "Verif.Props.C40_with_violated",
    "Verif.Props.C40_argument_violated",
    "Verif.Props.C40_free_partial",
    "Verif.Props.C40_same_names",
    "Verif.Props.C40_fresh",
    "Verif.Props.C40_file",
    "Verif.Props.C40_content",
    "Verif.Props.C40_statement",
    "Verif.Props.C40_value",
    "Verif.Props.C40_identifiers",
    "Verif.Props.C40_action",
    "Verif.Props.C40_name_violated"
   ],
   "note": "Proved: which names are passed, that the function and the call agree on them, that the file name is fresh and safe; for documents without syntax errors, that the new file has none and is the expression or a function that gives it, and that the new document is the old one with the import in its place, for functions, conditionals, assertions, with, let and all values of bindings, if the text around it fits (C40_action). Violated for inherit, for a with inside of the expression, for arguments of calls, and with the cursor on the name of a binding."
  },
  {
   "property": "C41",
   "status": "proved",
   "theorems": [
    "Verif.Props.C41_suppressed_set",
    "Verif.Props.C41_published_list",
    "Verif.Props.C41_diag_content",
    "Verif.Props.C41_note_content",
    "Verif.Props.C41_last_published_is_current"
   ],
   "note": "Suppressed set, published list, content, and state after any history."
  },
  {
   "property": "C42",
   "status": "proved",
   "theorems": [
    "Verif.Props.C42_touches",
    "Verif.Props.C42_exact"
   ],
   "note": "The server's test is exact, and the actions are exactly those of the touching diagnostics, in order."
  },
  {
   "property": "C43",
   "status": "partial",
   "theorems": [
    "Verif.Props.C43_insertion",
    "Verif.Props.C43_action",
    "Verif.Props.C43_uri_violated",
    "Verif.Props.C43_leading_violated",
    "Verif.Props.C43_trailing_violated"
   ],
   "note": "For documents without syntax errors, the change is made to the nearest function, its formals do not have the name yet, and the new document is the old one with exactly this name added, before the ellipsis if there is one (C43_action, C43_insertion). Violated after a trailing comma, for a comma in front of a lone ellipsis, and after a default that is a URI. Missing: defaults with a colon in them that end in a word or a brace, and documents with syntax errors."
  },
  {
   "property": "C44",
   "status": "proved",
   "theorems": [
    "Verif.Props.C44_variable",
    "Verif.Props.C44_safe",
    "Verif.Props.C44_exact",
    "Verif.Props.C44_attributes",
    "Verif.Props.C44_lambda_safe",
    "Verif.Props.C44_selection",
    "Verif.Props.C44_twice_violated"
   ],
   "note": "The outline is characterised exactly (C44_exact); each reached set has one symbol per attribute (C44_attributes); selection ranges lie in the ranges. Sets in the expression of `inherit (e) a b` are listed once per name (C44_twice_violated), sets in interpolations not at all."
  },
  {
   "property": "C45",
   "status": "partial",
   "theorems": [
    "Verif.Props.C45_name",
    "Verif.Props.C45_inherit",
    "Verif.Props.C45_dot",
    "Verif.Props.C45_set",
    "Verif.Props.C45_elsewhere",
    "Verif.Props.C45_owner",
    "Verif.Props.C45_place",
    "Verif.Props.C45_total",
    "Verif.Props.C45_options",
    "Verif.Props.C45_crash_violated",
    "Verif.Props.C45_select_violated",
    "Verif.Props.C45_paren_violated"
   ],
   "note": "The path is characterised at every node (C45_name, C45_dot, C45_set, C45_elsewhere, C45_inherit), `config` is left out once (C45_options), and no assertion fails unless the cursor is inside the expression of an attribute name (C45_total). Violated: an assertion fails there (C45_crash_violated), selections in values count as nesting (C45_select_violated), sets in parentheses do not (C45_paren_violated)."
  },
  {
   "property": "C46",
   "status": "proved",
   "theorems": [
    "Verif.Props.C46_terminates",
    "Verif.Props.C46_consumes_in_order",
    "Verif.Props.C46_consumes_all_or_error"
   ],
   "note": "For every source the parser ends (recursion depth at most length + 3), consumes the tokens in order skipping only trivia, and either reaches the end or reports unexpected text."
  },
  {
   "property": "C47",
   "status": "partial",
   "theorems": [
    "Verif.Props.C47_exact_partial",
    "Verif.Props.C47_queries_partial",
    "Verif.Props.C47_repeated_violated"
   ],
   "note": "For trees in which the options of a submodule do not themselves look like a type or a submodule (`Sane`): every answer, also after other queries that assign to the tree, is what the path leads to. Without that the second answer can differ from the first (C47_repeated_violated). Evaluation is taken to succeed."
  },
  {
   "property": "C48",
   "status": "partial",
   "theorems": [
    "Verif.Props.C48_ranges",
    "Verif.Props.C48_nesting_partial",
    "Verif.Props.C48_let_violated",
    "Verif.Props.C48_legacy_let_violated"
   ],
   "note": "Ranges and identifiers hold for every source. Nesting is violated at the keyword let (witnesses); everything else nests."
  },
  {
   "property": "C49",
   "status": "partial",
   "theorems": [
    "Verif.Props.C49_assert_violated"
   ],
   "note": "Two witnesses: `{ inherit \"a\"; }` and adjacent path interpolations."
  },
  {
   "property": "C50",
   "status": "proved",
   "theorems": [
    "Verif.Props.C50_diagnostics_in_source"
   ],
   "note": "All cursors of all parser diagnostics, notes and fixes are correct positions of the source."
  },
  {
   "property": "C51",
   "status": "partial",
   "theorems": [
    "Verif.Props.C51_extra_rec_exact",
    "Verif.Props.C51_legacy_let_violated"
   ],
   "note": "rec sets: exact for every program. `let { }` is treated as a rec set, and its fix removes `let` (witness)."
  },
  {
   "property": "C52",
   "status": "partial",
   "theorems": [
    "Verif.Props.C52_overridden_exact",
    "Verif.Props.C52_constant_exact",
    "Verif.Props.C52_unknown_exact",
    "Verif.Props.C52_removable_exact",
    "Verif.Props.C52_shadowed_violated",
    "Verif.Props.C52_captured_violated"
   ],
   "note": "Which diagnostics are given, with their fixes, is characterised for every program. The code goes by the name `builtins` alone: it reports attributes of a local variable of that name, and removes the prefix where the name is captured (witnesses)."
  },
  {
   "property": "C53",
   "status": "partial",
   "theorems": [
    "Verif.Props.C53_cursor_iff",
    "Verif.Props.C53_line",
    "Verif.Props.C53_wrong_variable_violated"
   ],
   "note": "Exact: right iff the characters of the line in front of the cursor are ASCII. Otherwise violated (C53_wrong_variable_violated): another variable may be taken."
  },
  {
   "property": "C54",
   "status": "partial",
   "theorems": [
    "Verif.Props.C54_outside_inherit_partial",
    "Verif.Props.C54_duplicate_violated",
    "Verif.Props.C54_dynamic_violated",
    "Verif.Props.C54_unrelated_violated"
   ],
   "note": "Proved for all nodes not below an inherit; below inherit the code violates it (C54_*_violated)."
  },
  {
   "property": "C55",
   "status": "proved",
   "theorems": [
    "Verif.Props.C55_int",
    "Verif.Props.C55_float",
    "Verif.Props.C55_path",
    "Verif.Props.C55_search_path"
   ],
   "note": "For all literals of all parsed files."
  },
  {
   "property": "C56",
   "status": "partial",
   "theorems": [
    "Verif.Props.C56_violated"
   ],
   "note": "Violated: in `\"$$${a}\"` the parser finds no interpolation. The exact rules the code follows are proved for C17 and C18."
  },
  {
   "property": "C57",
   "status": "partial",
   "theorems": [
    "Verif.Props.C57_double",
    "Verif.Props.C57_indented",
    "Verif.Props.C57_adjacent_violated",
    "Verif.Props.C57_partial",
    "Verif.Props.C57_interpolation_created_violated",
    "Verif.Props.C57_interpolation_lost_violated",
    "Verif.Props.C57_escape_violated"
   ],
   "note": "The new string has the recorded text. For every document without syntax errors: the rewritten document is read as before, also with interpolations, unless a fragment in front of another ends in a dollar sign (C57_double), or if the fragments have no dollar signs and quotes (C57_indented). Violated for escaped dollar signs next to interpolations, escape sequences of indented strings, texts with lone quotes, and strings that touch a word."
  },
  {
   "property": "C58",
   "status": "partial",
   "theorems": [
    "Verif.Props.C58_variable",
    "Verif.Props.C58_exact",
    "Verif.Props.C58_missing_violated"
   ],
   "note": "The tokens are characterised exactly (C58_exact) and have the right class (C58_variable). Violated: variables in interpolations, inherit, defaults of formals and attribute paths get none."
  },
  {
   "property": "C59",
   "status": "partial",
   "theorems": [
    "Verif.Props.C59_exact",
    "Verif.Props.C59_nested_violated"
   ],
   "note": "The links are characterised exactly. Violated: paths inside a path get no link."
  },
  {
   "property": "C60",
   "status": "partial",
   "theorems": [
    "Verif.Props.C60_partial",
    "Verif.Props.C60_violated"
   ],
   "note": "Violated for positions in column 0; proved for all others."
  },
  {
   "property": "C61",
   "status": "partial",
   "theorems": [
    "Verif.Props.C61_violated"
   ],
   "note": "Violated: the symbol of `a` in `{ a.b = 1; }` has the range of the name."
  },
  {
   "property": "C62",
   "status": "partial",
   "theorems": [
    "Verif.Props.C62_variable",
    "Verif.Props.C62_once_violated"
   ],
   "note": "The candidates are exact for every variable of every source. A name bound in two scopes is offered twice (C62_once_violated)."
  },
  {
   "property": "C63",
   "status": "partial",
   "theorems": [
    "Verif.Props.C63_selector",
    "Verif.Props.C63_total",
    "Verif.Props.C63_innermost_violated"
   ],
   "note": "Exact for every variable of every source, with the outermost `with`; no assertion fails. Violated: the outermost `with` is taken instead of the innermost (C63_innermost_violated)."
  },
  {
   "property": "C64",
   "status": "partial",
   "theorems": [
    "Verif.Props.C64_text_partial",
    "Verif.Props.C64_snippet_violated",
    "Verif.Props.C64_quote_violated"
   ],
   "note": "Proved for names without `$` and `\\`. Violated for names with these (snippets) and for names that need quotes."
  },
  {
   "property": "C65",
   "status": "partial",
   "theorems": [
    "Verif.Props.C65_last",
    "Verif.Props.C65_trailing_dot",
    "Verif.Props.C65_middle_violated",
    "Verif.Props.C65_inner_dot_violated",
    "Verif.Props.C65_first_dot_violated"
   ],
   "note": "Proved at the last name and at a dot after it, for every source. Violated in the middle of a path, at dots inside it, and at the first dot."
  },
  {
   "property": "C66",
   "status": "partial",
   "theorems": [
    "Verif.Props.C66_suppressed_violated"
   ],
   "note": "Violated: fixes of suppressed diagnostics are offered."
  },
  {
   "property": "C67",
   "status": "partial",
   "theorems": [
    "Verif.Props.C67_unquote_violated",
    "Verif.Props.C67_quote",
    "Verif.Props.C67_unquote",
    "Verif.Props.C67_adjacent_violated"
   ],
   "note": "For every document without syntax errors: quoting replaces exactly the name by a string of the same characters (C67_quote), and unquoting the string by the name, if nothing touches it (C67_unquote). Violated if something touches the name."
  },
  {
   "property": "C68",
   "status": "partial",
   "theorems": [
    "Verif.Props.C68_sound",
    "Verif.Props.C68_complete",
    "Verif.Props.C68_iff",
    "Verif.Props.C68_unambiguous",
    "Verif.Props.C68_has_path_violated",
    "Verif.Props.C68_empty_violated",
    "Verif.Props.C68_comma_violated",
    "Verif.Props.C68_call_violated"
   ],
   "note": "No syntax error is reported exactly for the expressions of the grammar that nixd accepts and for empty sources (C68_sound, C68_complete, C68_iff), the tree is the abstract syntax of the expression, and the grammar is unambiguous. Violated where this grammar is not that of Nix: `a ?`, empty documents, leading commas, calls of sets (witnesses)."
  },
  {
   "property": "C69",
   "status": "partial",
   "theorems": [
    "Verif.Props.C69_position",
    "Verif.Props.C69_variable",
    "Verif.Props.C69_with",
    "Verif.Props.C69_undefined",
    "Verif.Props.C69_select",
    "Verif.Props.C69_unreadable_violated",
    "Verif.Props.C69_path",
    "Verif.Props.C69_option",
    "Verif.Props.C69_line_violated",
    "Verif.Props.C69_crash_violated",
    "Verif.Props.C69_inherit_violated",
    "Verif.Props.C69_no_worker_violated",
    "Verif.Props.C69_no_definition_violated"
   ],
   "note": "Definitions of variables, with, select expressions, path literals and options are exact, as is the reading of positions (C69_position). Violated: line numbers of nixpkgs are one too large; unreadable positions and names in dynamic inherits end the server; without a nixpkgs worker a null pointer is dereferenced."
  },
  {
   "property": "C70",
   "status": "partial",
   "theorems": [
    "Verif.Props.C70_variable",
    "Verif.Props.C70_select",
    "Verif.Props.C70_option_partial",
    "Verif.Props.C70_no_nixpkgs_violated",
    "Verif.Props.C70_local_violated",
    "Verif.Props.C70_long_violated",
    "Verif.Props.C70_option_violated"
   ],
   "note": "The texts and ranges for variables, select expressions and options are exact. Violated: options need a nixpkgs worker, a local variable lib is taken for that of nixpkgs, a long description needs a short one."
  },
  {
   "property": "C71",
   "status": "partial",
   "theorems": [
    "Verif.Props.C71_exact",
    "Verif.Props.C71_bound_violated",
    "Verif.Props.C71_inner_with_violated",
    "Verif.Props.C71_no_worker_violated"
   ],
   "note": "The hints are exactly those of the variables below some `with pkgs`. Violated: variables with a binder or from a nearer with get hints; no worker for nixpkgs is a null pointer."
  },
  {
   "property": "C72",
   "status": "proved",
   "theorems": [
    "Verif.Props.C72_parts",
    "Verif.Props.C72_text",
    "Verif.Props.C72_name",
    "Verif.Props.C72_binding"
   ],
   "note": "For documents whose tree is not odd (no `?` without a path and no path with the text `${`, neither of which Nix allows)."
  },
  {
   "property": "C73",
   "status": "proved",
   "theorems": [
    "Verif.Props.C73_value",
    "Verif.Props.C73_replace",
    "Verif.Props.C73_statement",
    "Verif.Props.C73_parentheses"
   ],
   "note": "For documents whose tree is not odd; the boundary conditions are stated in the theorem and are satisfied by every text in parentheses, brackets or double quotes. Expressions that are called may only be replaced by ones that nixd allows to call. The value of a binding may be replaced by any expression (C73_value)."
  },
  {
   "property": "C74",
   "status": "partial",
   "theorems": [
    "Verif.Props.C74_analysis_is_current",
    "Verif.Props.C74_apart_up_to_date",
    "Verif.Props.C74_locked_up_to_date",
    "Verif.Props.C74_recovers",
    "Verif.Props.C74_settles",
    "Verif.Props.C74_fifo_last_config",
    "Verif.Props.C74_alone",
    "Verif.Props.C74_stale_violated",
    "Verif.Props.C74_suppressed_violated",
    "Verif.Props.C74_config_order_violated"
   ],
   "note": "Proved: under every schedule the stored analysis is current, everything ends without deadlock, a message handled alone is the atomic step of C05/C41; the client is up to date if the republishing loop does not overlap the unlocked part of a document update (or if every update publishes under the lock), and after any later configuration job that does not overlap. Violated otherwise: stale diagnostics, suppressed kinds shown, and an older configuration may win."
  },
  {
   "property": "C75",
   "status": "partial",
   "theorems": [
    "Verif.Props.C75_reply_is_output",
    "Verif.Props.C75_reply_unique",
    "Verif.Props.C75_replies",
    "Verif.Props.C75_large_output_violated",
    "Verif.Props.C75_killed_only_if_unread",
    "Verif.Props.C75_unread_violated",
    "Verif.Props.C75_begin",
    "Verif.Props.C75_closed_violated",
    "Verif.Props.C75_descriptors_violated",
    "Verif.Props.C75_edit_covers",
    "Verif.Props.C75_filter"
   ],
   "note": "Proved for every program and schedule: a reply is the one for the output and status of the formatter; if it reads the whole document and its output fits into the pipes every schedule ends with the reply. Violated: output larger than the pipe never gets a reply, a formatter that does not read everything can kill the server, a closed document is undefined behaviour, two descriptors leak per request."
  },
  {
   "property": "C76",
   "status": "partial",
   "theorems": [
    "Verif.Props.C76_lock_order",
    "Verif.Props.C76_no_deadlock",
    "Verif.Props.C76_finishes",
    "Verif.Props.C76_stuck",
    "Verif.Props.C76_worker_exits_violated",
    "Verif.Props.C76_exited_worker_violated"
   ],
   "note": "Proved for all threads, handlers and schedules: the mutexes are taken in one order, no deadlock if the workers answer, every schedule is bounded and can be completed. Violated when a worker exits with a pending request: the requests waiting for it keep OptionsLock, then the configuration job keeps ConfigLock, and these threads never go on; a worker that has exited is never detected. Not modelled: the fixed number of threads of the pool."
  },
  {
   "property": "C77",
   "status": "partial",
   "theorems": [
    "Verif.Props.C77_package",
    "Verif.Props.C77_names",
    "Verif.Props.C77_option",
    "Verif.Props.C77_no_option",
    "Verif.Props.C77_option_names",
    "Verif.Props.C77_null_position_violated",
    "Verif.Props.C77_answered",
    "Verif.Props.C77_uninitialised_violated"
   ],
   "note": "Proved for all heaps, paths and request sequences: the replies about packages and names, the replies about options when the positions of the declarations can be read, the names in completions, and that a worker with an evaluated expression answers every request. Violated for an option with a null entry in declarationPositions, which also fails the completion of the whole scope, and when the first expression could not be evaluated: the next request ends the process. Evaluation that does not end is not modelled."
  },
  {
   "property": "C78",
   "status": "partial",
   "theorems": [
    "Verif.Props.C78_decode",
    "Verif.Props.C78_effect",
    "Verif.Props.C78_received",
    "Verif.Props.C78_empty_reply_violated",
    "Verif.Props.C78_null_violated",
    "Verif.Props.C78_command_line_violated",
    "Verif.Props.C78_removed_violated"
   ],
   "note": "Proved for all JSON values and sequences of replies: what is accepted, and which configuration each part in effect comes from. Violated: removed options and packages stay in use; null for one part rejects all parts; everything but the formatting command given on the command line has no effect; an empty array as reply is undefined behaviour. Reading JSON text is not modelled."
  },
  {
   "property": "C79",
   "status": "partial",
   "theorems": [
    "Verif.Props.C79_request",
    "Verif.Props.C79_info",
    "Verif.Props.C79_option",
    "Verif.Props.C79_options",
    "Verif.Props.C79_text_violated",
    "Verif.Props.C79_file_violated"
   ],
   "note": "Proved for all requests and replies with UTF-8 strings and files that have a URI (C08). Violated for other strings, and for a declaration whose file is not a string: the whole reply is refused. The text of JSON values (LLVM) is not modelled."
  },
  {
   "property": "C80",
   "status": "partial",
   "theorems": [
    "Verif.Props.C80_ascii",
    "Verif.Props.C80_members",
    "Verif.Props.C80_output",
    "Verif.Props.C80_pretty",
    "Verif.Props.C80_bytes_violated"
   ],
   "note": "Proved for all inputs whose diagnostics have UTF-8 strings, with a reader of JSON written independently; inputs of ASCII characters are among them (C80_ascii). Violated for other inputs: the JSON library throws and the process is aborted. That all UTF-8 inputs have UTF-8 strings in their diagnostics is not proved. The serializer of nlohmann::json is modelled by its documentation."
  },
  {
   "property": "C81",
   "status": "partial",
   "theorems": [
    "Verif.Props.C81_reported",
    "Verif.Props.C81_fix",
    "Verif.Props.C81_joined_violated",
    "Verif.Props.C81_called_violated"
   ],
   "note": "The reports are proved exact for all documents. The fix is proved for all documents without syntax errors if the contents end at the closing parenthesis and do not touch what is before or after them, and if they are not called or may be called. Violated otherwise: contents that touch their neighbours are read together with them, and called sets become syntax errors. White space in front of the closing parenthesis is not covered."
  },
  {
   "property": "C82",
   "status": "partial",
   "theorems": [
    "Verif.Props.C82_unused",
    "Verif.Props.C82_adjacent_violated",
    "Verif.Props.C82_url",
    "Verif.Props.C82_rec",
    "Verif.Props.C82_with",
    "Verif.Props.C82_prefix",
    "Verif.Props.C82_quoted_violated",
    "Verif.Props.C82_default_violated",
    "Verif.Props.C82_inherit_violated",
    "Verif.Props.C82_insert"
   ],
   "note": "Proved for documents without syntax errors, if the text that moves to the front of the edited place does not run into what is before it, and for `builtins.x` with an identifier and no default. The fix for unused bindings removes exactly one binding (C82_unused). Violated for quoted names, for bindings that touch `let`, for selections with a default, and for inherited names that get the prefix `builtins.`. The insertion of `builtins.` in front of a variable puts the variable below `builtins` and keeps the names selected from it (C82_insert)."
  },
  {
   "property": "C83",
   "status": "proved",
   "theorems": [
    "Verif.Props.C83_bindings"
   ],
   "note": "For documents whose tree is not odd; the boundary conditions are stated in the theorem, as for C73. Used for flattening and packing several bindings (C37) and for removing unused ones (C82)."
  },
  {
   "property": "C84",
   "status": "partial",
   "theorems": [
    "Verif.Props.C84_child",
    "Verif.Props.C84_parent",
    "Verif.Props.C84_ends_partial",
    "Verif.Props.C84_errors_violated",
    "Verif.Props.C84_owned",
    "Verif.Props.C84_once",
    "Verif.Props.C84_all",
    "Verif.Props.C84_twice_violated",
    "Verif.Props.C84_stop_partial",
    "Verif.Props.C84_stolen_violated",
    "Verif.Props.C84_kept_violated",
    "Verif.Props.C84_limit_violated",
    "Verif.Props.C84_end_partial",
    "Verif.Props.C84_inherited_violated",
    "Verif.Props.C84_throw_violated"
   ],
   "note": "The descriptors of the child (C84_child) and of the parent (C84_parent) are exact, and AutoCloseFD closes every number once under all programs (C84_owned, C84_once, C84_all). Violated by the code: the output is returned in the place of the errors (C84_errors_violated), so it is closed twice (C84_twice_violated, C84_stolen_violated) and the end of the error pipe stays open (C84_kept_violated, C84_limit_violated); later workers inherit the input of earlier ones (C84_inherited_violated); descriptors stay open when an exception is thrown (C84_throw_violated)."
  },
  {
   "property": "C85",
   "status": "partial",
   "theorems": [
    "Verif.Props.C85_announced",
    "Verif.Props.C85_continues",
    "Verif.Props.C85_save_violated",
    "Verif.Props.C85_exit",
    "Verif.Props.C85_exit_code_violated",
    "Verif.Props.C85_order_violated"
   ],
   "note": "Proved: what is announced is registered (C85_announced), the session goes on (C85_continues), exit ends it (C85_exit). Violated: the exit code is always 0 (C85_exit_code_violated), requests are served in every phase (C85_order_violated), didSave is announced and ignored (C85_save_violated)."
  },
  {
   "property": "C86",
   "status": "partial",
   "theorems": [
    "Verif.Props.C86_paired",
    "Verif.Props.C86_unknown",
    "Verif.Props.C86_answered",
    "Verif.Props.C86_create_violated",
    "Verif.Props.C86_token_violated",
    "Verif.Props.C86_exited_violated"
   ],
   "note": "Proved: one beginning, at most one end, in this order and with one token, exactly if the call is completed (C86_paired), the end when the worker answers (C86_answered), nothing without the capability (C86_unknown). Violated: no end when the worker exits (C86_exited_violated), the client is not waited for (C86_create_violated), tokens may coincide (C86_token_violated)."
  },
  {
   "property": "C87",
   "status": "partial",
   "theorems": [
    "Verif.Props.C87_open",
    "Verif.Props.C87_close",
    "Verif.Props.C87_change",
    "Verif.Props.C87_names",
    "Verif.Props.C87_text",
    "Verif.Props.C87_ignored_violated",
    "Verif.Props.C87_scheme_violated",
    "Verif.Props.C87_host_violated"
   ],
   "note": "Proved: exact decoding (C87_open, C87_change, C87_close), URIs (C87_names), and the texts after any session from the JSON messages on (C87_text). Violated: a change that cannot be decoded is ignored and the old text kept (C87_ignored_violated), documents that are not files (C87_scheme_violated), URIs with `localhost` (C87_host_violated)."
  },
  {
   "property": "C88",
   "status": "partial",
   "theorems": [
    "Verif.Props.C88_sent_partial",
    "Verif.Props.C88_list_partial",
    "Verif.Props.C88_same_partial",
    "Verif.Props.C88_package_partial",
    "Verif.Props.C88_documentation_violated",
    "Verif.Props.C88_format_violated",
    "Verif.Props.C88_kind_violated",
    "Verif.Props.C88_undefined_violated"
   ],
   "note": "Proved: what is sent (C88_sent_partial, C88_list_partial), resolving items without data (C88_same_partial) and packages (C88_package_partial). Violated: empty documentation is sent as null (C88_documentation_violated), a resolved package has the format 5 (C88_format_violated), kind and format of an item without a kind are uninitialised (C88_kind_violated), and undefined behaviour for documentation that is a string, for parameters that are no object and without a worker (C88_undefined_violated)."
  },
  {
   "property": "C89",
   "status": "partial",
   "theorems": [
    "Verif.Props.C89_fix",
    "Verif.Props.C89_edit",
    "Verif.Props.C89_same_partial",
    "Verif.Props.C89_open",
    "Verif.Props.C89_extract",
    "Verif.Props.C89_extract_violated",
    "Verif.Props.C89_offered",
    "Verif.Props.C89_complete",
    "Verif.Props.C89_distinct_partial",
    "Verif.Props.C89_url_partial",
    "Verif.Props.C89_escape_violated",
    "Verif.Props.C89_lib_violated"
   ],
   "note": "Proved: what is sent (C89_fix, C89_edit, C89_extract), resolving (C89_same_partial for actions that edit one document, C89_open), and when which page is offered (C89_offered, C89_complete for identifiers, C89_distinct_partial, C89_url_partial). Violated: resolving the action that moves an expression to a file loses its edit (C89_extract_violated), names are not escaped in the URL (C89_escape_violated), other values named lib and the default of an attribute (C89_lib_violated)."
  },
  {
   "property": "C90",
   "status": "partial",
   "theorems": [
    "Verif.Props.C90_place",
    "Verif.Props.C90_document",
    "Verif.Props.C90_part",
    "Verif.Props.C90_rename",
    "Verif.Props.C90_completion",
    "Verif.Props.C90_action_partial",
    "Verif.Props.C90_code_violated",
    "Verif.Props.C90_declaration_violated",
    "Verif.Props.C90_published",
    "Verif.Props.C90_built",
    "Verif.Props.C90_back",
    "Verif.Props.C90_hover",
    "Verif.Props.C90_hover_text",
    "Verif.Props.C90_highlight",
    "Verif.Props.C90_link",
    "Verif.Props.C90_hint",
    "Verif.Props.C90_tokens",
    "Verif.Props.C90_symbols",
    "Verif.Props.C90_fold",
    "Verif.Props.C90_definition",
    "Verif.Props.C90_references",
    "Verif.Props.C90_renamed",
    "Verif.Props.C90_name_violated"
   ],
   "note": "Proved: which parameters are understood and as what (C90_place, C90_document, C90_part, C90_rename, C90_completion, C90_action_partial), what is sent (C90_published with C90_built, C90_hover with C90_hover_text, C90_highlight, C90_link, C90_hint, C90_tokens, C90_symbols, C90_fold, C90_definition, C90_references, C90_renamed) and that diagnostics come back (C90_back). Violated: a request for actions fails if a diagnostic of another server has a number as its code (C90_code_violated), the wish for the declaration is ignored (C90_declaration_violated), names of symbols can be white space (C90_name_violated)."
  },
  {
   "property": "C91",
   "status": "partial",
   "theorems": [
    "Verif.Props.C91_always",
    "Verif.Props.C91_early",
    "Verif.Props.C91_middle",
    "Verif.Props.C91_late",
    "Verif.Props.C91_objects",
    "Verif.Props.C91_formats",
    "Verif.Props.C91_kinds",
    "Verif.Props.C91_lost_violated",
    "Verif.Props.C91_members",
    "Verif.Props.C91_progress",
    "Verif.Props.C91_configuration",
    "Verif.Props.C91_snippets",
    "Verif.Props.C91_again",
    "Verif.Props.C91_item_kinds",
    "Verif.Props.C91_symbol_kinds_violated",
    "Verif.Props.C91_hierarchy_violated",
    "Verif.Props.C91_markdown_violated",
    "Verif.Props.C91_commands_violated",
    "Verif.Props.C91_prepare_violated"
   ],
   "note": "Proved: `initialize` succeeds for every object (C91_always); exactly when a capability is known (C91_early, C91_middle, C91_late, C91_objects, C91_formats, C91_kinds); the other members (C91_members); progress, configuration and snippets only for editors that say so (C91_progress, C91_configuration, C91_snippets); all kinds of completion items are known to every editor (C91_item_kinds); another `initialize` replaces what is known (C91_again). Violated: a member of a wrong type loses all capabilities after it (C91_lost_violated); kinds of symbols, hierarchies, formats of texts, code actions and the preparation of renames do not depend on what the editor says (C91_symbol_kinds_violated, C91_hierarchy_violated, C91_markdown_violated, C91_commands_violated, C91_prepare_violated)."
  },
  {
   "property": "C92",
   "status": "partial",
   "theorems": [
    "Verif.Props.C92_blocks",
    "Verif.Props.C92_unfinished",
    "Verif.Props.C92_file",
    "Verif.Props.C92_malformed",
    "Verif.Props.C92_opens",
    "Verif.Props.C92_end_violated",
    "Verif.Props.C92_fence_violated",
    "Verif.Props.C92_last_line_violated",
    "Verif.Props.C92_joined_violated"
   ],
   "note": "Proved: which files give a message, which message, and how much is read (C92_blocks); files without a whole block (C92_unfinished); all messages of a file in order (C92_file); a block that is not JSON ends the test (C92_malformed); a block of Nix opens its document (C92_opens). Violated: white space at the end of a document and lines that begin with three backquotes cannot be written (C92_end_violated, C92_fence_violated); a block whose end is the last line of the file, without a newline, is lost (C92_last_line_violated); lines of JSON are joined so that numbers run together (C92_joined_violated)."
  },
  {
   "property": "C93",
   "status": "proved",
   "theorems": [
    "Verif.Props.C93_ascii",
    "Verif.Props.Msgs.C93_reads",
    "Verif.Props.Msgs.C93_parse",
    "Verif.Props.Msgs.C93_lookup",
    "Verif.Props.Msgs.C93_published"
   ],
   "note": "Formatting reads out of bounds exactly if arguments are missing (C93_reads); every diagnostic and note of every source is formatted with an argument for each place (C93_parse, C93_lookup); the published notification carries these texts (C93_published, for arguments that are UTF-8; C93_ascii, for all sources of ASCII characters)."
  },
  {
   "property": "C94",
   "status": "partial",
   "theorems": [
    "Verif.Props.C94_token_partial",
    "Verif.Props.C94_operator",
    "Verif.Props.C94_slash_violated"
   ],
   "note": "Proved: the tokens are exactly the search paths and the search paths with a slash before `>`, each with its whole text (C94_token_partial); every other `<` is an operator (C94_operator). Violated: with the slash it is no search path of Nix, and every one of them is accepted (C94_slash_violated)."
  },
  {
   "property": "C95",
   "status": "proved",
   "theorems": [
    "Verif.Props.C95_token"
   ],
   "note": "A token is a URI with text v and rest r exactly if the remaining text is v followed by r, v is a URI of Nix, and r does not begin with a URI character (C95_token)."
  }
 ]
}