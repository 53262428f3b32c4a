{
 "claims": [
  {
   "property": "C01",
   "status": "proved",
   "theorems": [
    "Styx.Props.C01_tokenize_lossless"
   ],
   "note": ""
  },
  {
   "property": "C02",
   "status": "proved",
   "theorems": [
    "Styx.Props.C02_spans_exact"
   ],
   "note": "u32 offsets modelled as Nat (sources < 4 GiB)"
  },
  {
   "property": "C03",
   "status": "proved",
   "theorems": [
    "Styx.Props.C03_tokenizer_terminates"
   ],
   "note": "bound proved: at most the number of characters"
  },
  {
   "property": "C04",
   "status": "proved",
   "theorems": [
    "Styx.Props.C04_kind_text",
    "Styx.Props.C04_bare_maximal"
   ],
   "note": ""
  },
  {
   "property": "C05",
   "status": "proved",
   "theorems": [
    "Styx.Props.C05_quoted_round_trip",
    "Styx.Props.C05_quoted_round_trip_in_context"
   ],
   "note": "All strings; token, lexeme, event and formatter-unescape level."
  },
  {
   "property": "C06",
   "status": "partial",
   "theorems": [
    "Styx.Props.C06_valid_escapes_decoded",
    "Styx.Props.C06_invalid_escapes_reported_partial",
    "Styx.Props.C06_false_short",
    "Styx.Props.C06_false_empty"
   ],
   "note": "Valid texts decode exactly and silently; errors only for invalid texts; every non-lenient text is reported. The converse is false of the code (\\u00e, \\u{} accepted silently): witnesses proved."
  },
  {
   "property": "C07",
   "status": "partial",
   "theorems": [
    "Styx.Props.C07_raw_verbatim_partial",
    "Styx.Props.C07_false_256",
    "Styx.Props.C07_exact"
   ],
   "note": "Exact: a raw string with n hashes is read verbatim exactly when n <= 255 (C07_exact); beyond that the code's saturating u8 count ends the lexeme early, witness at 256."
  },
  {
   "property": "C08",
   "status": "proved",
   "theorems": [
    "Styx.Props.C08_heredoc_verbatim",
    "Styx.Props.C08_heredoc_unindented"
   ],
   "note": "All delimiters, language hints, bodies, indents and following texts."
  },
  {
   "property": "C09",
   "status": "partial",
   "theorems": [
    "Styx.Props.C09_bare_round_trip_partial",
    "Styx.Props.C09_false_gt",
    "Styx.Props.C09_exact"
   ],
   "note": "Exact: an accepted string round-trips exactly when it has no '>' (C09_exact)."
  },
  {
   "property": "C10",
   "status": "partial",
   "theorems": [
    "Styx.Props.C10_terminates",
    "Styx.Props.C10_no_panic_partial",
    "Styx.Props.C10_no_panic_plain_partial",
    "Styx.Props.C10_no_panic_ascii_partial",
    "Styx.Props.C10_false_escape",
    "Styx.Props.C10_false_key",
    "Styx.Props.C10_false_raw"
   ],
   "note": "Termination is proved for every source. Panic freedom is false (three kernel-checked witnesses). A panic needs a `\\u{` behind which a character of several bytes lies across the ninth byte before any `}`, in the source or in the decoded content of a quoted text behind a tag, or 256 consecutive hashes (C10_no_panic_partial); so there is none without \\u, and none in ASCII sources in which no quote follows a tag. Stack overflow by deep nesting is outside the model."
  },
  {
   "property": "C100",
   "status": "partial",
   "theorems": [
    "Styx.Props.C100_only",
    "Styx.Props.C100_input_partial",
    "Styx.Props.C100_json_false",
    "Styx.Props.C100_link_false"
   ],
   "note": "C100_only for all arguments and crash points. The input is safe without --in-place unless the file given for JSON is the input (C100_json_false) or the output is another name of the input (C100_link_false: a hard link)."
  },
  {
   "property": "C101",
   "status": "partial",
   "theorems": [
    "Styx.Props.C101_written_partial",
    "Styx.Props.C101_meaning_partial",
    "Styx.Props.C101_crash_partial",
    "Styx.Props.C101_crash_false",
    "Styx.Props.C101_ignored_false",
    "Styx.Props.C101_compact_false"
   ],
   "note": "A run that succeeds leaves exactly the formatted document or its JSON; in place, the new text means the same as the old (documents as in C29). Interrupted, the file is untouched or holds a beginning of the new text (C101_crash_partial), so it may be empty (C101_crash_false). Options after --json-out and --in-place are ignored (C101_ignored_false); --compact has no effect (C101_compact_false)."
  },
  {
   "property": "C102",
   "status": "partial",
   "theorems": [
    "Styx.Props.C102_zero_partial",
    "Styx.Props.C102_codes_partial",
    "Styx.Props.C102_conforms_partial",
    "Styx.Props.C102_false"
   ],
   "note": "0 exactly if the specification's Satisfies holds (C102_zero_partial), which for the plain fragment is conformance to the schema (C102_conforms_partial); the other codes by C102_codes_partial. False as stated: a schema given by an address ends with 1 for a correct document (C102_false). What reads a schema file into a schema is a parameter."
  },
  {
   "property": "C103",
   "status": "partial",
   "theorems": [
    "Styx.Props.C103_inside_partial",
    "Styx.Props.C103_distinct",
    "Styx.Props.C103_absolute_false",
    "Styx.Props.C103_up_false"
   ],
   "note": "Different hashes never share a file (C103_distinct). Inside the cache when the declared program is no absolute path and neither it nor the identifier contains a part `..` (C103_inside_partial); otherwise false: an absolute program (C103_absolute_false) or an identifier with `..` (C103_up_false) leads out. The hash is a parameter: 16 characters without a slash."
  },
  {
   "property": "C104",
   "status": "partial",
   "theorems": [
    "Styx.Props.C104_complete_partial",
    "Styx.Props.C104_stuck",
    "Styx.Props.C104_alone",
    "Styx.Props.C104_early_false",
    "Styx.Props.C104_crash_false"
   ],
   "note": "Whenever nobody is writing and nobody was stopped in the middle of writing, the file is the schema (C104_complete_partial), for any interleaving of writers and clearing; an undisturbed call succeeds (C104_alone). False otherwise: a path is returned while another server is still writing (C104_early_false); a crash leaves a wrong file that only clearing removes (C104_crash_false, C104_stuck)."
  },
  {
   "property": "C105",
   "status": "partial",
   "theorems": [
    "Styx.Props.C105_raw",
    "Styx.Props.C105_partial",
    "Styx.Props.C105_false"
   ],
   "note": "Every raw literal with any number of # is read right (C105_raw). A quoted literal is read right if and only if it uses no escape other than \\n \\r \\t \\\\ \\\" \\0 (C105_partial); \\x41, \\u{41}, \\' and a backslash at the end of a line are kept as they are (C105_false). Literals of the form b\"…\" and c\"…\" are not modelled."
  },
  {
   "property": "C106",
   "status": "proved",
   "theorems": [
    "Styx.Props.C106_accepts",
    "Styx.Props.C106_found",
    "Styx.Props.C106_symbols"
   ],
   "note": "LZ4 and BLAKE3 are parameters (Lawful). Sizes below 2^32. The hypothesis on other schemas in the program speaks of every record after magic bytes with a right hash (as C37), also accidental ones. parseTree t ≠ none excludes documents on which the modelled parser does not return."
  },
  {
   "property": "C107",
   "status": "proved",
   "theorems": [
    "Styx.Props.C107",
    "Styx.Props.C107_output"
   ],
   "note": "Doc comments and the places of tags themselves are not printed (plainValue); the place of a tagged value is. Which characters `{:?}` prints as they are is a parameter: the theorem holds for each choice."
  },
  {
   "property": "C108",
   "status": "partial",
   "theorems": [
    "Styx.Props.C108_partial",
    "Styx.Props.C108_swift",
    "Styx.Props.C108_error_partial",
    "Styx.Props.C108_false"
   ],
   "note": "Proved for documents whose texts consist of characters that Rust prints as they are, line feeds, carriage returns and tabs (C108_partial), and for messages without quotes (C108_error_partial). The Go printer is the same program as the Python one, and the Swift one differs in the escaping, which is proved equal (C108_swift). False for every other control character: printed as \\u{1}, \\u0001 and itself (C108_false)."
  },
  {
   "property": "C109",
   "status": "partial",
   "theorems": [
    "Styx.Props.C109_partial",
    "Styx.Props.C109_false",
    "Styx.Props.C109_false_default"
   ],
   "note": "Proved for schemas in which no type is an alias of itself and no default of a type is of this same type (Grounded; recursion through fields, lists and maps is allowed). False otherwise: `A @A` (C109_false) and `A @object{x @default({} @A)}` (C109_false_default) recurse until the stack is full."
  },
  {
   "property": "C11",
   "status": "partial",
   "theorems": [
    "Styx.Props.C11_spans_partial",
    "Styx.Props.C11_false"
   ],
   "note": "Proved in both modes for every event except invalid-escape errors, and for all events when the source contains neither two consecutive backslashes nor \\u. The full statement is false: C11_false."
  },
  {
   "property": "C110",
   "status": "partial",
   "theorems": [
    "Styx.Props.C110_partial",
    "Styx.Props.C110_false_number",
    "Styx.Props.C110_false_missing",
    "Styx.Props.C110_false_union",
    "Styx.Props.C110_false_proto"
   ],
   "note": "Proved for documents that fit and for the types string, int, float, bool, unit, any, object, seq, map, optional, default and named types. Not for unions and unknown types, which are read as if untyped (C110_false_union), nor is a document refused that does not fit: a text for an integer gives NaN (C110_false_number), a missing required field is just absent (C110_false_missing). A key `__proto__` sets the prototype of the result (C110_false_proto). Integers above 2^53, which JavaScript rounds, and parseFloat are simplified."
  },
  {
   "property": "C111",
   "status": "partial",
   "theorems": [
    "Styx.Props.C111_partial",
    "Styx.Props.C111_ends",
    "Styx.Props.C111_false"
   ],
   "note": "Proved for documents whose keys are different texts, not empty and not `__proto__`, up to tags. Tags, and values under keys that are no texts or are `__proto__`, are lost (C111_false)."
  },
  {
   "property": "C112",
   "status": "partial",
   "theorems": [
    "Styx.Props.C112_ends_partial",
    "Styx.Props.C112_answer",
    "Styx.Props.C112_false"
   ],
   "note": "Proved, with a linear bound, for texts that have no `(` or no `}` and `>`, and no `{` or no `)` and `>`. False in general: `(}`, `(>`, `{)` and `{>`, whatever follows, keep the loop over the items or entries running without reading anything (C112_false). Missing: exactly which other documents hang."
  },
  {
   "property": "C113",
   "status": "partial",
   "theorems": [
    "Styx.Props.C113_agree_partial",
    "Styx.Props.C113_agrees_partial",
    "Styx.Props.C113_swift",
    "Styx.Props.C113_false",
    "Styx.Props.C113_false_lost",
    "Styx.Props.C113_false_lone",
    "Styx.Props.C113_false_comma",
    "Styx.Props.C113_false_tag",
    "Styx.Props.C113_false_rejected",
    "Styx.Props.C113_false_twice",
    "Styx.Props.C113_braced_partial",
    "Styx.Props.C113_braced_trailing"
   ],
   "note": "Proved for the documents of the grammar SwiftRoot (all kinds of values, nested without limit), with what is read, and which of them are rejected for the order of their paths. False in general: items behind attributes are lost, keys without value in an object take the next key as value, commas become entries, keys are accepted twice, and CRLF, one-letter heredocs, commas at the root and long escapes are rejected (C113_false…). Documents in braces are read as by Python, JavaScript and Go (C113_braced_partial), and with anything behind the braces rejected (C113_braced_trailing). Missing: documents outside the grammar on which they agree too."
  },
  {
   "property": "C114",
   "status": "partial",
   "theorems": [
    "Styx.Props.C114_token_partial",
    "Styx.Props.C114_nested_partial",
    "Styx.Props.C114_nested_unclosed_partial",
    "Styx.Props.C114_opening_false",
    "Styx.Props.C114_return_false",
    "Styx.Props.C114_long_false",
    "Styx.Props.C114_separator_false"
   ],
   "note": "Proved as an equivalence for texts in which every carriage return starts a line break, openings with a line break and delimiters of at most 16 characters; for the nested text also without U+2028 and U+2029. False otherwise: an opening followed by other text is no token, a carriage return alone ends a line, delimiters of 17 characters are accepted, and U+2028 ends a line for the regular expression (C114_…_false). Heredocs without a closing line go to the end of the text in both."
  },
  {
   "property": "C115",
   "status": "partial",
   "theorems": [
    "Styx.Props.C115_others",
    "Styx.Props.C115_swift",
    "Styx.Props.C115_rust_partial",
    "Styx.Props.C115_rust_false",
    "Styx.Props.C115_go_false"
   ],
   "note": "Proved for Python, JavaScript and Swift. Rust: proved up to escapes in strings that the lexer rejects and the parser's own check accepts, such as \\u{} (C115_rust_false). False for Go: an error of the lexer behind the last complete entry is kept and never reported, and the rest of the text is dropped (C115_go_false, for every rest)."
  },
  {
   "property": "C116",
   "status": "partial",
   "theorems": [
    "Styx.Props.C116_iff_partial",
    "Styx.Props.C116_ascii_partial",
    "Styx.Props.C116_exact",
    "Styx.Props.C116_duplicate",
    "Styx.Props.C116_false"
   ],
   "note": "False: byte offsets are passed where characters are counted, so that behind a character of several bytes the report underlines a later text or none (C116_false). Proved: exactly when the right text is underlined, for every place (C116_exact) and for every syntax error except those of escapes (C116_iff_partial). That ariadne counts characters is its documentation, not a part of the model that could be proved."
  },
  {
   "property": "C117",
   "status": "partial",
   "theorems": [
    "Styx.Props.C117_partial",
    "Styx.Props.C117_parsed_partial",
    "Styx.Props.C117_tokens",
    "Styx.Props.C117_coloured",
    "Styx.Props.C117_attribute_false",
    "Styx.Props.C117_raw_false",
    "Styx.Props.C117_payload_false",
    "Styx.Props.C117_lines_false",
    "Styx.Props.C117_heredoc_false"
   ],
   "note": "False of attributes, raw strings without hashes or behind a tag, quoted strings over several lines, and heredocs with a line that holds the delimiter and a blank behind it (the _false theorems). Proved for all documents without these and without carriage returns, U+2028, U+2029 and U+FEFF: the colours are exactly those of the coloured grammar, whose texts are documents of the parser (C117_partial, C117_parsed_partial). Proved without conditions: every character has a colour, and the tokens of each line are in order (C117_tokens, C117_coloured). Not modelled: embedded languages in heredocs."
  },
  {
   "property": "C118",
   "status": "partial",
   "theorems": [
    "Styx.Props.C118_partial",
    "Styx.Props.C118_false"
   ],
   "note": "False for data with tags, with keys that are not texts or with a key twice: tags and such entries are lost (C118_false). C118_partial is exact: the diagnostic comes back if and only if its span begins and ends between characters and its data is plain (no tags, keys are different texts); the data then says the same up to quoting and the order of entries. The vox protocol and the JSON text are taken to deliver what was sent."
  },
  {
   "property": "C119",
   "status": "partial",
   "theorems": [
    "Styx.Props.C119_partial",
    "Styx.Props.C119_documents",
    "Styx.Props.C119_false"
   ],
   "note": "False: of two lists of edits for the same document only the last is kept; edits for something that is not a URL are made in the document of the action; edits for a document that is not open are left out (C119_false). Proved for actions whose lists are for different open documents, without carriage returns and with characters of one UTF-16 unit: each edit does, in the editor, what the extension asked for, and nothing else is sent (C119_partial); without conditions: one list for each document, only documents the action names or its own (C119_documents)."
  },
  {
   "property": "C12",
   "status": "partial",
   "theorems": [
    "Styx.Props.C12_nested_partial",
    "Styx.Props.C12_nested_expr",
    "Styx.Props.C12_false"
   ],
   "note": "False for documents where a braced object directly follows root content: the implicit root object stays open (C12_false). Proved for every source: no end mismatches, and that is the only case where something stays open; expressions are always balanced."
  },
  {
   "property": "C120",
   "status": "partial",
   "theorems": [
    "Styx.Props.C120_partial",
    "Styx.Props.C120_agree",
    "Styx.Props.C120_false"
   ],
   "note": "False: the columns count bytes and are sent as they are, so the hint for what follows an `é` is shown too far right (C120_false). C120_partial is exact for documents without carriage returns: the hint is at its place if and only if the line up to the offset is ASCII or ends there. The two ways agree for every offset in the document and panic for the same offsets (C120_agree)."
  },
  {
   "property": "C121",
   "status": "partial",
   "theorems": [
    "Styx.Props.C121_partial",
    "Styx.Props.C121_registry",
    "Styx.Props.C121_false"
   ],
   "note": "False: `*` also matches separators, so a file can be one of two tools and the suggestion then depends on the random order of a hash map (C121_false). C121_partial: for every absolute path, every order and every configuration directory without `{` and `*` in its name, a suggestion is made exactly for the files of the tools, it is one of the file's tools, and outside of directories `.dibs-queries` there is only one. C121_registry: the shipped registry, read by the model of the document tree, has these hints."
  },
  {
   "property": "C122",
   "status": "partial",
   "theorems": [
    "Styx.Props.C122_partial",
    "Styx.Props.C122_schema_partial",
    "Styx.Props.C122_optOut_false",
    "Styx.Props.C122_missing_false",
    "Styx.Props.C122_identifier_false",
    "Styx.Props.C122_twice_false"
   ],
   "note": "C122_partial: for documents whose declaration is a path or an object with both `id` and `cli`, of a schema that is there and can be read, the editor shows an error of the schema exactly if the command line ends with 2, none exactly if it ends with 0, and both run out of stack together. False in general: a document that opts out is refused by the command line (C122_optOut_false); the editor shows nothing when the schema is missing (C122_missing_false) or the declaration has no `id` (C122_identifier_false); the two take different declarations of a document with two (C122_twice_false)."
  },
  {
   "property": "C123",
   "status": "partial",
   "theorems": [
    "Styx.Props.C123_partial",
    "Styx.Props.C123_required_false",
    "Styx.Props.C123_unreachable_false"
   ],
   "note": "C123_partial: for every interleaving of runs, from any registry that fulfils it, when requests for the latest version are answered truthfully and no schema defines a type or field twice, compatible versions keep types, tags, fields and variants. False: a field added as optional can be made required in a further compatible version, which the comparison of the two ends itself calls breaking (C123_required_false); a failed request is taken for a crate without versions, and 0.1.0 is published next to 0.1.1 (C123_unreachable_false)."
  },
  {
   "property": "C124",
   "status": "partial",
   "theorems": [
    "Styx.Props.C124_partial",
    "Styx.Props.C124_get_partial",
    "Styx.Props.C124_len_partial",
    "Styx.Props.C124_tags_partial",
    "Styx.Props.C124_raw_false",
    "Styx.Props.C124_unicode_false",
    "Styx.Props.C124_heredoc_false",
    "Styx.Props.C124_attributes_false",
    "Styx.Props.C124_keys_false",
    "Styx.Props.C124_docs_false"
   ],
   "note": "C124_partial: for all documents without unicode escapes, attributes, keys with tags, chains of tags and braces around the root; raw strings are shown with their quotes, heredocs with their indentation (and their delimiter with the language), doc comments with their nearest lines in reverse. C124_tags_partial: name and payload of every tag, also in chains. False otherwise: raw strings keep their quotes, unicode escapes are not resolved, heredocs keep their indentation, attributes are a missing value, keys with tags and braced roots have an empty key text, doc comments come in reverse and end at a comment or comma."
  },
  {
   "property": "C125",
   "status": "partial",
   "theorems": [
    "Styx.Props.C125_document",
    "Styx.Props.C125_cursor",
    "Styx.Props.C125_tagged",
    "Styx.Props.C125_prefix_partial",
    "Styx.Props.C125_request_partial",
    "Styx.Props.C125_character_false",
    "Styx.Props.C125_path_false",
    "Styx.Props.C125_key_path_false",
    "Styx.Props.C125_completion_path_false",
    "Styx.Props.C125_context_false",
    "Styx.Props.C125_sequence_context_false",
    "Styx.Props.C125_prefix_false"
   ],
   "note": "The tagged context is the same for every tree and cursor; the position exactly on lines that are ASCII up to the cursor; the word for words without parentheses and commas. The whole request for hover and definition agrees with the cursor inside a scalar reached through untagged objects (documents without dotted keys at the root and keys without values), up to the place noted in the context. False otherwise: columns count bytes, the path at the end of a value and on a key, the path of completions, the place of the context, sequences, words behind parentheses."
  },
  {
   "property": "C126",
   "status": "partial",
   "theorems": [
    "Styx.Props.C126_mark",
    "Styx.Props.C126_read",
    "Styx.Props.C126_verdict_partial",
    "Styx.Props.C126_expect_fail",
    "Styx.Props.C126_severity_false",
    "Styx.Props.C126_end_line_false",
    "Styx.Props.C126_outside_false",
    "Styx.Props.C126_bar_false",
    "Styx.Props.C126_line_zero_false",
    "Styx.Props.C126_boundary_false",
    "Styx.Props.C126_first_mark_false",
    "Styx.Props.C126_caret_line_false"
   ],
   "note": "Which lines are marks and what is read of a test is proved for all inputs written as lines with marks below them. The verdict is exact, and the run never panics, for tests without the bar of a cursor, marks on their lines, and diagnostics in one line each. False otherwise: the severity is never compared, the line of the end is never compared, places outside the document are taken as its end, the columns are counted with the bar, line 0 and places inside characters panic, marks above the first line are dropped, lines of the document that look like marks are taken out."
  },
  {
   "property": "C127",
   "status": "proved",
   "theorems": [
    "Styx.Props.C127_place",
    "Styx.Props.C127_none",
    "Styx.Props.C127_read_back",
    "Styx.Props.C127_same",
    "Styx.Props.C127_apart",
    "Styx.Props.C127_around",
    "Styx.Props.C127_inside",
    "Styx.Props.C127_order",
    "Styx.Props.C127_insert",
    "Styx.Props.C127_push",
    "Styx.Props.C127_object",
    "Styx.Props.C127_unit",
    "Styx.Props.C127_sequence"
   ],
   "note": "For all trees and all texts of paths (place, failure, reading back, writing the same); for pairs of paths made of steps, which are all paths that can be written without an empty step. A mutable reference is the function applied to what it refers to."
  },
  {
   "property": "C128",
   "status": "partial",
   "theorems": [
    "Styx.Props.C128_subtree",
    "Styx.Props.C128_document",
    "C128_address",
    "Styx.Props.C128_cursor_partial",
    "Styx.Props.C128_unnamed_false",
    "Styx.Props.C128_twice_false",
    "Styx.Props.C128_sequence_false"
   ],
   "note": "What a path leads to: for all documents and paths. That the path of a request leads to the value of the cursor: for documents whose keys all have a text, no object with one twice, and a cursor not in a sequence. False for keys without text, attributes that come twice and items of sequences, with witnesses."
  },
  {
   "property": "C129",
   "status": "partial",
   "theorems": [
    "Styx.Props.C129_crate",
    "Styx.Props.C129_succeeds",
    "Styx.Props.C129_only",
    "Styx.Props.C129_refused",
    "Styx.Props.C129_unique",
    "Styx.Props.C129_crash_partial",
    "Styx.Props.C129_torn_false",
    "Styx.Props.C129_stale_false",
    "Styx.Props.C129_quote_false"
   ],
   "note": "The crate, for names and versions without quotes, backslashes and control characters (all that Cargo allows); other files and refusals for all inputs. Interruptions: for a directory without a schema the name and the version are right and the schema is a beginning of the given one; false that it is the whole, and false in a directory with an older crate (new version with the older schema), with witnesses."
  },
  {
   "property": "C13",
   "status": "proved",
   "theorems": [
    "Styx.Props.C13_entry",
    "Styx.Props.C13_document",
    "Styx.Props.C13_expression"
   ],
   "note": "All sources without error events, document and expression mode."
  },
  {
   "property": "C130",
   "status": "partial",
   "theorems": [
    "Styx.Props.C130_link_partial",
    "Styx.Props.C130_only_partial",
    "Styx.Props.C130_undeclared",
    "Styx.Props.C130_hint_partial",
    "Styx.Props.C130_shown_partial",
    "Styx.Props.C130_false_place",
    "Styx.Props.C130_false_cache",
    "Styx.Props.C130_false_blank"
   ],
   "note": "For first declarations that are a path or name a program and an identifier, documents without carriage returns of characters of one UTF-16 unit, absolute paths of documents, and (for schemas of programs) a cache whose file holds the schema or is not there and can be written. False without these: a malformed first declaration gets the link of the second (C130_false_place), a torn or colliding file in the cache is linked and not repaired (C130_false_cache); a description that begins with an empty line shows a bare dash (C130_false_blank). Hints of extensions and the requested range, which the server ignores, are not modelled."
  },
  {
   "property": "C131",
   "status": "partial",
   "theorems": [
    "Styx.Props.C131_verdict_partial",
    "Styx.Props.C131_completions_partial",
    "Styx.Props.C131_hover",
    "Styx.Props.C131_hints_partial",
    "Styx.Props.C131_definition_partial",
    "Styx.Props.C131_actions",
    "Styx.Props.C131_false_label",
    "Styx.Props.C131_false_kind",
    "Styx.Props.C131_false_line",
    "Styx.Props.C131_false_panic",
    "Styx.Props.C131_false_zero"
   ],
   "note": "For answers without two completions of the same label, cases that ask for no kind of a completion and no line 0, definitions that the bar of the cursor does not move to another line, and diagnostics as in C126. False without these: only the first completion with a label is looked at (C131_false_label), kinds are never compared (C131_false_kind), the line of a definition is looked up in the text with the bar (C131_false_line), which panics inside a character of several bytes (C131_false_panic); line 0 panics (C131_false_zero). A definition in another document is looked up in the lines of the document of the test, as here."
  },
  {
   "property": "C132",
   "status": "partial",
   "theorems": [
    "Styx.Props.C132_partial",
    "Styx.Props.C132_false_kind",
    "Styx.Props.C132_false_key"
   ],
   "note": "Exactly characterised: the texts are the same iff what is shown of the trees is (`shownValue`): structure, texts, names of tags and the kinds of scalars in sequences and after tags (C132_partial). False as stated: the kind of a scalar that is the value of an entry is not shown (C132_false_kind), nor what follows the tag of a key (C132_false_key)."
  },
  {
   "property": "C133",
   "status": "proved",
   "theorems": [
    "Styx.Props.C133"
   ],
   "note": "For the events of every run of the parser without errors, and an invariant of the builder."
  },
  {
   "property": "C134",
   "status": "partial",
   "theorems": [
    "Styx.Props.C134_partial",
    "Styx.Props.C134_texts",
    "Styx.Props.C134_count",
    "Styx.Props.C134_false"
   ],
   "note": "Proved but for errors in an empty last line of the source, for texts in which carriage returns are only before newlines (C134_texts: each of them is written as the theorem asks). False as stated: an error in an empty last line has no place, and the assertion panics (C134_false). Not covered: other carriage returns."
  },
  {
   "property": "C135",
   "status": "proved",
   "theorems": [
    "Styx.Props.C135"
   ],
   "note": "For texts in which carriage returns are only before newlines (C134_texts)."
  },
  {
   "property": "C136",
   "status": "partial",
   "theorems": [
    "Styx.Props.C136_partial",
    "Styx.Props.C136_again",
    "Styx.Props.C136_false"
   ],
   "note": "Proved for buffers in which no line that begins with a closing bracket is right below an empty one. False as stated: below an empty line a closing bracket is indented like what it closes (C136_false). The indentation is a column, not tabs and spaces."
  },
  {
   "property": "C137",
   "status": "partial",
   "theorems": [
    "Styx.Props.C137_partial",
    "Styx.Props.C137_names",
    "Styx.Props.C137_sound",
    "Styx.Props.C137_false_text",
    "Styx.Props.C137_false_default"
   ],
   "note": "Proved for paths through types that are not modified or only by @optional, with the text at the place noted in the tree; for all paths, that the lookup does not panic and offers only fields that some object below schema writes (C137_sound). False as stated: the text of a type with a tag and a payload lacks the tag (C137_false_text), and below @default(value type) the default is taken for the type (C137_false_default)."
  },
  {
   "property": "C138",
   "status": "partial",
   "theorems": [
    "Styx.Props.C138_partial",
    "Styx.Props.C138_exact",
    "Styx.Props.C138_inside",
    "Styx.Props.C138_false"
   ],
   "note": "Proved for lines that do not end with the closing bracket of a non-empty object or sequence opened on the same line; for all lines, what exactly is offered (C138_exact), which is always the inside of an object or sequence opened on the line (C138_inside). False as stated: such an object is offered although it is on one line, and hides the one around it (C138_false). The parser of Lezer is not modelled, nor is the folding of CodeMirror that is asked if the service offers nothing."
  },
  {
   "property": "C139",
   "status": "partial",
   "theorems": [
    "Styx.Props.C139_all",
    "Styx.Props.C139_iff_partial",
    "Styx.Props.C139_ascii_partial",
    "Styx.Props.C139_false",
    "Styx.Props.C139_false_place"
   ],
   "note": "Proved for values with a place, exactly if all characters up to the end of the text are one byte. False as stated: behind an é the wrong text is underlined (C139_false), and a field missing behind a tag is reported at the first character of the document (C139_false_place). Of ariadne only that ranges count characters; texts of labels and notes are left out."
  },
  {
   "property": "C14",
   "status": "partial",
   "theorems": [
    "Styx.Props.C14_duplicates_partial",
    "Styx.Props.C14_duplicates_expr_partial",
    "Styx.Props.C14_false_dotted",
    "Styx.Props.C14_false_tag_unit",
    "Styx.Props.C14_attributes_unchecked"
   ],
   "note": "The full claim is false of the code: dotted keys of a root object written with braces are not tracked (C14_false_dotted) and `@a` against `@a@` is missed (C14_false_tag_unit). Proved for every braced object at every depth of every source whose only errors are duplicate keys and in which every \\u begins a proper escape; the root object when the source has no dot."
  },
  {
   "property": "C140",
   "status": "partial",
   "theorems": [
    "Styx.Props.C140_partial",
    "Styx.Props.C140_exact",
    "Styx.Props.C140_false"
   ],
   "note": "Proved for all comments except those directly in a sequence and those inside of keys other than in objects and payloads of tags that are items of a sequence; C140_exact says that these are exactly the comments with a token. False as stated: a comment on its own line in a sequence gets no token (C140_false). C40 and C51 do not imply it: they allow that nothing is reported."
  },
  {
   "property": "C15",
   "status": "partial",
   "theorems": [
    "Styx.Props.C15_adjacent_partial",
    "Styx.Props.C15_false"
   ],
   "note": "False of the code: only the previous root path is remembered at the top level (C15_false: a 1 / b 2 / a 3). Proved: neighbouring root keys of error-free documents without dots, malformed \\u escapes and root braces differ."
  },
  {
   "property": "C16",
   "status": "partial",
   "theorems": [
    "Styx.Props.C16_accepted_iff_partial",
    "Styx.Props.C16_next_partial",
    "Styx.Props.C16_open_partial",
    "Styx.Props.C16_document_partial",
    "Styx.Props.C16_false",
    "Styx.Props.C16_false_prefix",
    "Styx.Props.C16_braced_false"
   ],
   "note": "Exact characterisation of acceptance and rejection over all histories, of the open path, and of which documents are accepted. The clause 'a path extending a path that was given a value is rejected' is false for paths that are no longer on the current path (C16_false); a value for a proper prefix of the last path is also accepted (C16_false_prefix). Between braces around the root nothing about dotted paths is checked (C16_braced_false)."
  },
  {
   "property": "C17",
   "status": "proved",
   "theorems": [
    "Styx.Props.C17_tag_payload_adjacent",
    "Styx.Props.C17_tagged_key_adjacent"
   ],
   "note": "Value position: the event following a tag start is its end, starts right after the tag's name, or is the next tag of a chain after one slash. Key position: a tagged key covers the tag's text followed directly by the payload's text."
  },
  {
   "property": "C18",
   "status": "proved",
   "theorems": [
    "Styx.Props.C18_attributes",
    "Styx.Props.C18_braces"
   ],
   "note": "The tree of every run of attributes at a key; as a value anywhere else: C47_document, whose grammar has runs of attributes as values."
  },
  {
   "property": "C19",
   "status": "proved",
   "theorems": [
    "Styx.Props.C19_build",
    "Styx.Props.C19_parse"
   ],
   "note": "All trees whose keys a key event can express; with arbitrary spans and interspersed comments; and every error-free source."
  },
  {
   "property": "C20",
   "status": "proved",
   "theorems": [
    "Styx.Props.C20_first_error",
    "Styx.Props.C20_success",
    "Styx.Props.C20_parse"
   ],
   "note": ""
  },
  {
   "property": "C21",
   "status": "partial",
   "theorems": [
    "Styx.Props.C21_unclosed_partial",
    "Styx.Props.C21_false"
   ],
   "note": "False of the code for open tags that have their value and for mismatched ends (witnesses). Proved for streams whose ends match."
  },
  {
   "property": "C22",
   "status": "proved",
   "theorems": [
    "Styx.Props.C22_get_same",
    "Styx.Props.C22_get_other",
    "Styx.Props.C22_order",
    "Styx.Props.C22_length",
    "Styx.Props.C22_unit",
    "Styx.Props.C22_history"
   ],
   "note": ""
  },
  {
   "property": "C23",
   "status": "partial",
   "theorems": [
    "Styx.Props.C23_empty",
    "Styx.Props.C23_follow_partial",
    "Styx.Props.C23_exact_partial",
    "Styx.Props.C23_loose",
    "Styx.Props.C23_document",
    "Styx.Props.C23_false"
   ],
   "note": "False only for an index step into an object that has a key spelled [n]; exact characterisation proved."
  },
  {
   "property": "C24",
   "status": "partial",
   "theorems": [
    "Styx.Props.C24_document_partial",
    "Styx.Props.C24_braced_partial",
    "Styx.Props.C24_false_tags",
    "Styx.Props.C24_false_unit",
    "Styx.Props.C24_false_tagged_scalar",
    "Styx.Props.C24_false_tagged_key",
    "Styx.Props.C24_false_dotted",
    "Styx.Props.C24_false_gt",
    "Styx.Props.C24_false_heredoc",
    "Styx.Props.C24_false_doc",
    "Styx.Props.C24_false_error",
    "Styx.Props.C24_false_panic"
   ],
   "note": "The full claim is false of the code (C24_false_*): tags without payload in sequences are joined and lost, units in sequences, tagged scalars, keys with tag and bare scalar, dotted keys, '>' in strings, heredocs, doc comments. C24_document_partial proves the round trip, for every blank indentation and every style and width, on all trees of PrintableRoot, which leaves out exactly these."
  },
  {
   "property": "C25",
   "status": "partial",
   "theorems": [
    "Styx.Props.C25_errors_partial",
    "Styx.Props.C25_false"
   ],
   "note": "Exact for all calls over all histories, except keys with doc comments, which never return an error (C25_false)."
  },
  {
   "property": "C26",
   "status": "proved",
   "theorems": [
    "Styx.Props.C26_cst_lossless",
    "Styx.Props.C26_kinds"
   ],
   "note": "For every source, with or without errors; also that every token is a leaf in order is in C27."
  },
  {
   "property": "C27",
   "status": "proved",
   "theorems": [
    "Styx.Props.C27_cst_terminates"
   ],
   "note": "The fuel bound is linear in the source, any larger fuel gives the same result; every token is a leaf, in order, exactly once."
  },
  {
   "property": "C28",
   "status": "proved",
   "theorems": [
    "Styx.Props.C28_errors_unchanged"
   ],
   "note": "For every source and indentation."
  },
  {
   "property": "C29",
   "status": "partial",
   "theorems": [
    "Styx.Props.C29_false",
    "Styx.Props.C29_entries_partial",
    "Styx.Props.C29_tree_partial",
    "Styx.Props.C29_conflict_partial",
    "Styx.Props.C29_twice_partial",
    "Styx.Props.C29_braced_entries_partial",
    "Styx.Props.C29_braced_tree_partial",
    "Styx.Props.C29_braced_duplicate_partial"
   ],
   "note": "False in general: a heredoc alone in a sequence (C29_false). Proved, for every text of root entries in the grammar of Verif.Text.Grammar, also with braces around the root (Verif.Text.BracedSpec), without such a sequence and for any indentation of blanks: the formatted text is a text of the same root entries, so both parse to the same tree (spans aside), or both are rejected for conflicting keys. Missing: chains of tags, and sources the grammar does not cover."
  },
  {
   "property": "C30",
   "status": "partial",
   "theorems": [
    "Styx.Props.C30_partial",
    "Styx.Props.C30_document_partial",
    "Styx.Props.C30_false_pattern",
    "Styx.Props.C30_false_flatten",
    "Styx.Props.C30_false_variant",
    "Styx.Props.C30_false_fallback",
    "Styx.Props.C30_false_deprecated",
    "Styx.Props.C30_false_unitKey"
   ],
   "note": "Validity equals conformance for the plain fragment; false of the code for patterns, flattening, optional payloads of variants, fallback with constraints, deprecated optional fields and the unit key."
  },
  {
   "property": "C31",
   "status": "proved",
   "theorems": [
    "Styx.Props.C31"
   ],
   "note": ""
  },
  {
   "property": "C32",
   "status": "partial",
   "theorems": [
    "Styx.Props.C32_partial",
    "Styx.Props.C32_false"
   ],
   "note": "Missing: schemas with a field named by the empty text, for which the unit key is mistaken for it."
  },
  {
   "property": "C33",
   "status": "proved",
   "theorems": [
    "Styx.Props.C33",
    "Styx.Props.C33_document",
    "Styx.Props.C33_unguarded"
   ],
   "note": ""
  },
  {
   "property": "C34",
   "status": "partial",
   "theorems": [
    "Styx.Props.C34",
    "Styx.Props.C34_deep_partial",
    "Styx.Props.C34_false_field",
    "Styx.Props.C34_false_variant",
    "Styx.Props.C34_false_warning"
   ],
   "note": "Direct wrapping is proved outright (C34); deep marking except around omittable fields and enum variants, where it is false."
  },
  {
   "property": "C35",
   "status": "proved",
   "theorems": [
    "Styx.Props.C35",
    "Styx.Props.C35_distance"
   ],
   "note": ""
  },
  {
   "property": "C36",
   "status": "proved",
   "theorems": [
    "Styx.Props.C36",
    "Styx.Props.C36_exact"
   ],
   "note": "LZ4 and BLAKE3 are parameters with the laws of `Lawful`; schemas shorter than 4 GiB (the length field is 32 bits)."
  },
  {
   "property": "C37",
   "status": "proved",
   "theorems": [
    "Styx.Props.C37"
   ],
   "note": ""
  },
  {
   "property": "C38",
   "status": "partial",
   "theorems": [
    "Styx.Props.C38",
    "Styx.Props.C38_partial",
    "Styx.Props.C38_false"
   ],
   "note": "Scanning never panics (C38); extraction from object files panics for section headers whose end overflows 64 bits."
  },
  {
   "property": "C39",
   "status": "proved",
   "theorems": [
    "Styx.Props.C39",
    "Styx.Props.C39_position"
   ],
   "note": "All documents and all character boundaries."
  },
  {
   "property": "C40",
   "status": "proved",
   "theorems": [
    "Styx.Props.C40",
    "Styx.Props.C40_document"
   ],
   "note": "Token lists in document order; and the tokens of every source, valid or not, are in document order."
  },
  {
   "property": "C41",
   "status": "partial",
   "theorems": [
    "Styx.Props.C41_partial",
    "Styx.Props.C41_unterminated_partial",
    "Styx.Props.C41_false",
    "Styx.Props.C41_broken"
   ],
   "note": "False: the edit leaves the newline that ends the document, so it is doubled. Proved for documents without lone carriage return: the result is the formatted text followed by the old final line terminator (exactly the formatted text when there is none)."
  },
  {
   "property": "C42",
   "status": "partial",
   "theorems": [
    "Styx.Props.C42_partial",
    "Styx.Props.C42_compact_partial",
    "Styx.Props.C42_false_gt",
    "Styx.Props.C42_false_lines",
    "Styx.Props.C42_false_option",
    "Styx.Props.C42_false_wide"
   ],
   "note": "Proved for all types without enums, tuples and 128-bit integers and all values in which strings are not written as heredocs, bare strings have no '>', and Some does not hold something written '@'; each exception has a witness. Floats are not modelled."
  },
  {
   "property": "C43",
   "status": "partial",
   "theorems": [
    "Styx.Props.C43_partial",
    "Styx.Props.C43_false"
   ],
   "note": "Versions below the largest 64-bit number; for that number the sum overflows."
  },
  {
   "property": "C44",
   "status": "proved",
   "theorems": [
    "Styx.Props.C44",
    "Styx.Props.C44_self"
   ],
   "note": "All documents without duplicate keys among types and fields (the parser rejects others), all orders of hash maps. Keys that are not plain scalars (catch-all fields) are not compared by the code: see C53."
  },
  {
   "property": "C45",
   "status": "proved",
   "theorems": [
    "Styx.Props.C45"
   ],
   "note": "For the spans that the highlighter computes, of every source, valid or not; sources without the escape character."
  },
  {
   "property": "C46",
   "status": "proved",
   "theorems": [
    "Styx.Props.C46"
   ],
   "note": "The CLI's function; the one of the language server is the same text."
  },
  {
   "property": "C47",
   "status": "proved",
   "theorems": [
    "Styx.Props.C47_document",
    "Styx.Props.C47_layout",
    "Styx.Props.C47_conflict",
    "Styx.Props.C47_value",
    "Styx.Props.C47_expression",
    "Styx.Props.C47_braced",
    "Styx.Props.C47_braced_duplicate",
    "Styx.Props.C47_braced_accepted",
    "Styx.Props.C47_braced_layout",
    "Styx.Props.C47_braces"
   ],
   "note": "Over the grammars of Verif/Text/Grammar.lean (documents without braces around the root) and Verif/Text/BracedSpec.lean (with them)."
  },
  {
   "property": "C48",
   "status": "partial",
   "theorems": [
    "Styx.Props.C48_plain_partial",
    "Styx.Props.C48_multiline_partial",
    "Styx.Props.C48_false",
    "Styx.Props.C48_false_panic"
   ],
   "note": "False in general: positions of opening braces become stale when commas before them are replaced, so a line break lands inside a key, or beyond the end (panic). Proved: calls without doc comment only append, and with multi-line structs so do those with."
  },
  {
   "property": "C49",
   "status": "partial",
   "theorems": [
    "Styx.Props.C49_ink_partial",
    "Styx.Props.C49_false"
   ],
   "note": "Proved for every source in which no entry has several values or consists of attributes only (sources with errors included); false otherwise: the surplus values are dropped silently."
  },
  {
   "property": "C50",
   "status": "partial",
   "theorems": [
    "Styx.Props.C50_partial",
    "Styx.Props.C50_false",
    "Styx.Props.C50_false_catchAll"
   ],
   "note": "Holds for the plain fragment; false for constrained scalar variants of enums and several catch-alls."
  },
  {
   "property": "C51",
   "status": "partial",
   "theorems": [
    "Styx.Props.C51_false",
    "Styx.Props.C51_send_partial",
    "Styx.Props.C51_receive_partial",
    "Styx.Props.C51_false_length",
    "Styx.Props.C51_tokens_partial"
   ],
   "note": "False for characters outside the basic plane (columns), lone carriage returns and non-ASCII tokens (length in bytes). Proved for documents without carriage returns whose characters are one UTF-16 unit (positions) or one byte (tokens)."
  },
  {
   "property": "C52",
   "status": "partial",
   "theorems": [
    "Styx.Props.C52_false",
    "Styx.Props.C52_partial",
    "Styx.Props.C52_panics"
   ],
   "note": "False for non-ASCII lines and for the end of a document after a newline; proved otherwise."
  },
  {
   "property": "C53",
   "status": "partial",
   "theorems": [
    "Styx.Props.C53_false",
    "Styx.Props.C53_partial"
   ],
   "note": "False: changes of a field's type are not looked at. Proved: what a comparison without breaking changes does ensure."
  },
  {
   "property": "C54",
   "status": "proved",
   "theorems": [
    "Styx.Props.C54"
   ],
   "note": "For all types of the model and all texts; stack overflow is not modelled."
  },
  {
   "property": "C55",
   "status": "partial",
   "theorems": [
    "Styx.Props.C55_partial",
    "Styx.Props.C55_false_unit",
    "Styx.Props.C55_false_payload",
    "Styx.Props.C55_false_seq",
    "Styx.Props.C55_false_field"
   ],
   "note": "False of every unit variant and, with witnesses, of other variants and of tuples inside sequences and structs; proved for tuples on their own."
  },
  {
   "property": "C56",
   "status": "partial",
   "theorems": [
    "Styx.Props.C56_partial",
    "Styx.Props.C56_compact_partial",
    "Styx.Props.C56_false"
   ],
   "note": "Proved when no unknown field is written '@' and the listed values survive the writer (see C42); false for an unknown field that is '@' followed by a bare key."
  },
  {
   "property": "C57",
   "status": "partial",
   "theorems": [
    "Styx.Props.C57_tree_partial",
    "Styx.Props.C57_false",
    "Styx.Props.C57_unit",
    "Styx.Props.C57_expression"
   ],
   "note": "Proved for every source that has a tree. False without that condition: an object after entries at the root (C12) gives events of no value although there is no error. The representation of a unit depends on where it stands (C57_unit); the specification allows both."
  },
  {
   "property": "C58",
   "status": "proved",
   "theorems": [
    "Styx.Props.C58_first_error",
    "Styx.Props.C58_no_error",
    "Styx.Props.C58_expr",
    "Styx.Props.C58_after_error"
   ],
   "note": "Apart from sources on which the parser itself panics (C10). Reading on after an error is outside the property; C58_after_error shows it can panic."
  },
  {
   "property": "C59",
   "status": "proved",
   "theorems": [
    "Styx.Props.C59_peek",
    "Styx.Props.C59_peek_error",
    "Styx.Props.C59_twice"
   ],
   "note": "For all states."
  },
  {
   "property": "C60",
   "status": "proved",
   "theorems": [
    "Styx.Props.C60_skip",
    "Styx.Props.C60_describes",
    "Styx.Props.C60_terminates"
   ],
   "note": "For all states."
  },
  {
   "property": "C61",
   "status": "partial",
   "theorems": [
    "Styx.Props.C61_hint_partial",
    "Styx.Props.C61_scalar",
    "Styx.Props.C61_false_later",
    "Styx.Props.C61_false_peeked"
   ],
   "note": "What a hinted scalar is read as is proved for all texts; floats are a parameter. False: a hint before a value that is no scalar stays pending for a later scalar, and a hint after a peek does not affect the peeked scalar but the one after it."
  },
  {
   "property": "C62",
   "status": "partial",
   "theorems": [
    "Styx.Props.C62_restore_partial",
    "Styx.Props.C62_false"
   ],
   "note": "Proved for one save and any calls until the restore. False for a save inside a save: there is one slot, the second restore does nothing."
  },
  {
   "property": "C63",
   "status": "partial",
   "theorems": [
    "Styx.Props.C63_validate",
    "Styx.Props.C63_json_partial",
    "Styx.Props.C63_false"
   ],
   "note": "validate and parse agree on every source; to_json agrees exactly for sources with balanced events. False in full: a braced object after a root entry is valid but to_json reports an unclosed structure."
  },
  {
   "property": "C64",
   "status": "partial",
   "theorems": [
    "Styx.Props.C64_roundtrip_partial",
    "Styx.Props.C64_false_text",
    "Styx.Props.C64_false_null",
    "Styx.Props.C64_false_gt",
    "Styx.Props.C64_false_dot",
    "Styx.Props.C64_false_tagged",
    "Styx.Props.C64_false_root"
   ],
   "note": "Round trip of every object of stable values of any nesting, assuming what Lawful says of printing and reading floats. False in full: strings that look like numbers, booleans or null, null in arrays, names with dots, '>' and tagged scalars are changed."
  },
  {
   "property": "C65",
   "status": "partial",
   "theorems": [
    "Styx.Props.C65_paths_partial",
    "Styx.Props.C65_order",
    "Styx.Props.C65_false",
    "Styx.Props.C65_scalars"
   ],
   "note": "Every path of every document; an entry is hidden by a later one with the same name, which is possible for unit and tagged keys in braces."
  },
  {
   "property": "C66",
   "status": "partial",
   "theorems": [
    "Styx.Props.C66_paths_partial",
    "Styx.Props.C66_sorted",
    "Styx.Props.C66_false"
   ],
   "note": "Every path of every document; the same exception as C65."
  },
  {
   "property": "C67",
   "status": "partial",
   "theorems": [
    "Styx.Props.C67_document_partial",
    "Styx.Props.C67_facet_partial",
    "Styx.Props.C67_compact_partial",
    "Styx.Props.C67_false",
    "Styx.Props.C67_false_number",
    "Styx.Props.C67_false_items",
    "Styx.Props.C67_false_string",
    "Styx.Props.C67_false_line",
    "Styx.Props.C67_false_heredoc",
    "Styx.Props.C67_false_dotted",
    "Styx.Props.C67_false_key",
    "Styx.Props.C67_false_root"
   ],
   "note": "False in general (the false theorems). Proved for all options and all calls described by MakesDocument and Makes: structs, sequences, maps, bytes, strings, units, variants with payloads, doc comments at the root; missing: chained tags and doc comments below the root."
  },
  {
   "property": "C68",
   "status": "partial",
   "theorems": [
    "Styx.Props.C68_document",
    "Styx.Props.C68_error",
    "Styx.Props.C68_value",
    "Styx.Props.C68_text_partial",
    "Styx.Props.C68_object",
    "Styx.Props.C68_sequence",
    "Styx.Props.C68_root",
    "Styx.Props.C68_false"
   ],
   "note": "Full statement false: a text with NUL (possible by an escape) cannot be returned as a C string, and null comes instead (C68_false). Proved for all texts and trees without NUL, in every state of memory that calls can reach; C68_error, C68_value, C68_object, C68_sequence and C68_root hold for all documents."
  },
  {
   "property": "C69",
   "status": "proved",
   "theorems": [
    "Styx.Props.C69_defined",
    "Styx.Props.C69_stable",
    "Styx.Props.C69_owned",
    "Styx.Props.C69_leak",
    "Styx.Props.C69_rules",
    "Styx.Props.C69_abort"
   ],
   "note": "For all histories. C69_rules shows that breaking the rules is undefined behaviour in the model; C69_abort that the exception (the parser panics, see C10) occurs."
  },
  {
   "property": "C70",
   "status": "partial",
   "theorems": [
    "Styx.Props.C70_again_partial",
    "Styx.Props.C70_iterate_partial",
    "Styx.Props.C70_braced_partial",
    "Styx.Props.C70_braced_iterate_partial",
    "Styx.Props.C70_false_comma",
    "Styx.Props.C70_false_empty",
    "Styx.Props.C70_false_doc",
    "Styx.Props.C70_false_braced"
   ],
   "note": "Proved for documents in the form of RootText or, with braces around the root, of BracedText, whose tree is Tidy (no stray commas, no line break in an empty object) and without sequences of one heredoc; false with stray commas and with a line break in an empty object. Missing: chains of tags."
  },
  {
   "property": "C71",
   "status": "partial",
   "theorems": [
    "Styx.Props.C71_duplicate",
    "Styx.Props.C71_mixed",
    "Styx.Props.C71_only",
    "Styx.Props.C71_places",
    "Styx.Props.C71_document_partial",
    "Styx.Props.C71_braced_partial",
    "Styx.Props.C71_false_missed",
    "Styx.Props.C71_false_spurious"
   ],
   "note": "For every source the warnings are exact in terms of the text that the validation takes a key to have; for documents of the text grammar, with or without braces around the root, exact in terms of the paths of the root entries. False for keys spelled with \\u escapes, raw strings, empty keys, tags, and quoted keys with dots."
  },
  {
   "property": "C72",
   "status": "partial",
   "theorems": [
    "Styx.Props.C72_in_source",
    "Styx.Props.C72_noted",
    "Styx.Props.C72_text",
    "Styx.Props.C72_tag",
    "Styx.Props.C72_order_entries",
    "Styx.Props.C72_order_items",
    "Styx.Props.C72_nested_partial",
    "Styx.Props.C72_key_value_partial",
    "Styx.Props.C72_nested_false",
    "Styx.Props.C72_key_value_false",
    "Styx.Props.C72_tag_outside"
   ],
   "note": "In the source, nothing without a place, text at the place, tags and order: for every source. Nesting and keys before values: for documents without dotted keys at the root; false with dotted keys (witnesses), whose objects note the place of the key. Raw strings: for sources without 256 hashes in a row (see C07)."
  },
  {
   "property": "C73",
   "status": "partial",
   "theorems": [
    "Styx.Props.C73_sound",
    "Styx.Props.C73_exact_partial",
    "Styx.Props.C73_key_partial",
    "Styx.Props.C73_false",
    "Styx.Props.C73_tag_outside"
   ],
   "note": "What is found is right: for every tree. Exactly what the cursor is on is found: for documents without dotted keys at the root; false with them (witness), because the objects a dotted key makes do not cover the value. The cursor on a tag finds nothing."
  },
  {
   "property": "C74",
   "status": "partial",
   "theorems": [
    "Styx.Props.C74_object",
    "Styx.Props.C74_closest_partial",
    "Styx.Props.C74_sequence_false",
    "Styx.Props.C74_dotted_false",
    "Styx.Props.C74_tag",
    "Styx.Props.C74_tag_closest_partial",
    "Styx.Props.C74_cost_false"
   ],
   "note": "An object and only a tagged value around the cursor is found: for every source. The closest one: for documents without dotted keys at the root, and objects reached through objects. False for objects in sequences and of dotted keys (witnesses), and the cost doubles with every level of untagged objects (for every depth)."
  },
  {
   "property": "C75",
   "status": "partial",
   "theorems": [
    "Styx.Props.C75_consistent",
    "Styx.Props.C75_latest_partial",
    "Styx.Props.C75_shown_partial",
    "Styx.Props.C75_finish",
    "Styx.Props.C75_older_false",
    "Styx.Props.C75_closed_false",
    "Styx.Props.C75_changes_false",
    "Styx.Props.C75_allow_false",
    "Styx.Props.C75_shown_first_false"
   ],
   "note": "For every schedule: what is stored was sent for that document and is parsed from its own text, and handlers can finish. Latest text and diagnostics: when the handlers of one document do not overlap, changes carry one text, no parser panic. False otherwise: an older change overwrites a newer one, a closed document stays stored, the first of several changes is kept, allowing an extension drops the tree error from the diagnostics, and diagnostics appear before requests are answered from the text (witness schedules)."
  },
  {
   "property": "C76",
   "status": "partial",
   "theorems": [
    "Styx.Props.C76_answered_partial",
    "Styx.Props.C76_readers_partial",
    "Styx.Props.C76_deadlock_false"
   ],
   "note": "Answered in every fair schedule when no extension calls back while the documents are held, or when no document is opened, changed or closed. False otherwise: one request with a call back and one change can block the server for good, with every later request."
  },
  {
   "property": "C77",
   "status": "partial",
   "theorems": [
    "Styx.Props.C77_allowed_partial",
    "Styx.Props.C77_running",
    "Styx.Props.C77_unblock",
    "Styx.Props.C77_once_partial",
    "Styx.Props.C77_prefix_false",
    "Styx.Props.C77_twice_false",
    "Styx.Props.C77_again_false"
   ],
   "note": "Every schedule: a launched command begins with an allowed one; running means running; allowing unblocks. Once: for calls that do not overlap, with processes that answer. False: an allowed command allows every command that begins with it; two documents opened at once launch two processes; a process that does not answer is launched again with every change (for every number of changes)."
  },
  {
   "property": "C78",
   "status": "partial",
   "theorems": [
    "Styx.Props.C78_file_partial",
    "Styx.Props.C78_kept_partial",
    "Styx.Props.C78_only_partial",
    "Styx.Props.C78_running",
    "Styx.Props.C78_arrow_false",
    "Styx.Props.C78_lines_false",
    "Styx.Props.C78_lost_false",
    "Styx.Props.C78_edit_false",
    "Styx.Props.C78_mistake_false",
    "Styx.Props.C78_forgets_false",
    "Styx.Props.C78_comments_false"
   ],
   "note": "For commands without `>` and with at most one line break: the file is read back; the next server allows exactly what was allowed when commands are allowed in the newest server and the file is not edited; no server allows anything else, for any number of servers and any edits. Running servers never forget. False: a permission given in one server is lost when another is given in an older or newer one; edits and files with a mistake are overwritten; a command with `>` makes the file unreadable and takes every permission; comments are lost."
  },
  {
   "property": "C79",
   "status": "partial",
   "theorems": [
    "Styx.Props.C79_outline",
    "Styx.Props.C79_selection",
    "Styx.Props.C79_name",
    "Styx.Props.C79_detail",
    "Styx.Props.C79_siblings",
    "Styx.Props.C79_nested_partial",
    "Styx.Props.C79_nested_false",
    "Styx.Props.C79_sequence_left_out"
   ],
   "note": "All but the nesting of ranges for every source; nesting for sources without dotted keys at the root. False: in `a.b 1` the symbol `b` ends behind its parent `a`. Limit: entries in sequences are left out, by design of the code."
  },
  {
   "property": "C80",
   "status": "partial",
   "theorems": [
    "Styx.Props.C80_missing",
    "Styx.Props.C80_root_partial",
    "Styx.Props.C80_nested_false",
    "Styx.Props.C80_object_false",
    "Styx.Props.C80_braces_false",
    "Styx.Props.C80_string_false",
    "Styx.Props.C80_dotted_false",
    "Styx.Props.C80_name_false",
    "Styx.Props.C80_name_dotted_false"
   ],
   "note": "Which fields are filled in: for all schemas and objects. The document afterwards: for the root, documents without carriage returns whose last line of fields does not look like a comment, and fields with bare names. False for every object below the root (the fields land behind its closing brace; for all ASCII documents), for a root in braces, dotted keys, strings over lines, and names that need quotes."
  },
  {
   "property": "C81",
   "status": "partial",
   "theorems": [
    "Styx.Props.C81_terminates_partial",
    "Styx.Props.C81_cycle_false",
    "Styx.Props.C81_map_false",
    "Styx.Props.C81_schema_partial",
    "Styx.Props.C81_tag_false",
    "Styx.Props.C81_flatten_false",
    "Styx.Props.C81_required_partial",
    "Styx.Props.C81_required_false"
   ],
   "note": "Termination for guarded schemas (the condition of C33), the schema found for paths through untagged objects, the required fields for fields without default and deprecation. False: a type that is another name of itself (no answer with any fuel: the server overflows its stack), a map without types (panic), tagged objects (the tag is taken for a name), flattened types, fields with defaults (offered as required) and deprecated optional fields (reported but not offered)."
  },
  {
   "property": "C82",
   "status": "partial",
   "theorems": [
    "Styx.Props.C82_partial",
    "Styx.Props.C82_sequence_false",
    "Styx.Props.C82_named_false",
    "Styx.Props.C82_bounds_false"
   ],
   "note": "For the schemas of the inductive `Proposes`: scalars whose bounds admit the empty string or zero, maps, objects without required fields, wrappers of any depth, unions and one-of lists by their first alternative, unit variants, bare literals and defaults, and tuples of such. False for every sequence (`[]` is read as a word), every named object type (`@T` is a tag), numbers and strings with lower bounds, objects with required fields, enums with payload, literals with spaces."
  },
  {
   "property": "C83",
   "status": "partial",
   "theorems": [
    "Styx.Props.C83_fields_partial",
    "Styx.Props.C83_accept_partial",
    "Styx.Props.C83_comma_false",
    "Styx.Props.C83_paren_false",
    "Styx.Props.C83_space_false",
    "Styx.Props.C83_required_false"
   ],
   "note": "Fields: all cases, except required fields whose type has a name beginning with `optional` or `default`. Edits: documents without carriage returns and characters outside the basic plane, words after a blank, line break or brace. False: a comma or parenthesis does not end a word, so accepting an item removes parts of other values; whitespace of several bytes before the word makes the request panic (for all documents)."
  },
  {
   "property": "C84",
   "status": "partial",
   "theorems": [
    "Styx.Props.C84_errors_partial",
    "Styx.Props.C84_warnings_partial",
    "Styx.Props.C84_shown_partial",
    "Styx.Props.C84_warnings_shown_partial",
    "Styx.Props.C84_wrong_value_false",
    "Styx.Props.C84_wrong_line_false"
   ],
   "note": "All schemas, values, errors and warnings: the path and, outside payloads of tags, the place. In the editor: documents without carriage returns and characters outside the basic plane; errors about the whole document have no place. False behind a tag: the payload is validated without its place, so the error is shown at a field of the same name as the tag or at the first character of the document."
  },
  {
   "property": "C85",
   "status": "partial",
   "theorems": [
    "Styx.Props.C85_rejected",
    "Styx.Props.C85_place_partial",
    "Styx.Props.C85_accepted_partial",
    "Styx.Props.C85_exact_partial",
    "Styx.Props.C85_braced_accepted_partial",
    "Styx.Props.C85_braced_exact_partial",
    "Styx.Props.C71_plain_partial",
    "Styx.Props.C85_marked_false",
    "Styx.Props.C85_place_false",
    "Styx.Props.C85_allowed_false"
   ],
   "note": "All documents: rejected ones are marked. The place: errors of the parser, in documents without carriage returns and characters outside the basic plane, except for errors in escapes when the document has `\\\\` or `\\u`. Accepted ones are not marked: texts of the grammar of Verif.Text.Grammar (also with braces around the root) without an object as an item of a sequence or without attributes. False: `x (a>1)` and `x @///c` are accepted and marked; an object behind other root entries is rejected and marked at the first character; after an extension was allowed the errors of the tree parser are no longer shown."
  },
  {
   "property": "C86",
   "status": "partial",
   "theorems": [
    "Styx.Props.C86_structs_partial",
    "Styx.Props.C86_names_partial",
    "Styx.Props.C86_types_partial",
    "Styx.Props.C86_declared_partial",
    "Styx.Props.C86_validate_partial",
    "Styx.Props.C86_undeclared_false",
    "Styx.Props.C86_renamed_false",
    "Styx.Props.C86_clash_false",
    "Styx.Props.C86_names_false",
    "Styx.Props.C86_types_false",
    "Styx.Props.C86_bound_false",
    "Styx.Props.C86_deprecated_false",
    "Styx.Props.C86_nested_false"
   ],
   "note": "Structs, fields and their types: schema files in which no two objects get the same Go name, and for types no `@map` with one argument and names in Pascal case. Different Go names: fields in snake case. Declared types: files whose types are objects and enums and whose names are in Pascal case. `Validate`: integer bounds of 64 bits, fields without `@deprecated` and `@flatten`. False in general: a named scalar type is used and not declared; `owner_info` is declared and `OwnerInfo` used; a nested object loses its fields to a type of the same name; `log_level` and `logLevel` are one field; `@map(@int)` becomes `map[int64]interface{}`; bounds of more than 64 bits wrap around; optional deprecated fields are reported missing; `Validate` does not look into nested structs. Not modelled: the generated `Parse`, which ignores the document (lib.rs:424-428)."
  },
  {
   "property": "C87",
   "status": "partial",
   "theorems": [
    "Styx.Props.C87_accepts_partial",
    "Styx.Props.C87_rejects_partial",
    "Styx.Props.C87_closed",
    "Styx.Props.C87_reachable",
    "Styx.Props.C87_flatten_false",
    "Styx.Props.C87_same_name_false",
    "Styx.Props.C87_opaque_false",
    "Styx.Props.C87_u128_false",
    "Styx.Props.C87_key_false",
    "Styx.Props.C87_payload_false",
    "Styx.Props.C87_schema_false",
    "Styx.Props.C87_range_false",
    "Styx.Props.C87_endless"
   ],
   "note": "Acceptance in both directions: root structs; types with distinct names; at most one flattened field per struct, a map; opaque types known to be text; integers of up to 128 bits with a sign; scalar map keys; variants whose payload is never written as unit; not the type `Schema` itself. Closedness and reachability: all programs. False in general: a flattened struct becomes a catch-all and its own documents are rejected (the example of the documentation); of two types with one name one is lost; an unknown opaque type and `Schema` are referred to and not defined; 2^127 as `u128`, the map key `@` of an optional key, and a variant without its optional payload are rejected; a `u8` takes 300; the schema for a type that is itself behind an `Option` makes the validator run without end. `Vec<u8>` written as hexadecimal digits is left out of the specification. Not modelled: skipped fields, documentation and the `meta` block."
  },
  {
   "property": "C88",
   "status": "partial",
   "theorems": [
    "Styx.Props.C88_declared",
    "Styx.Props.C88_add_partial",
    "Styx.Props.C88_optOut_partial",
    "Styx.Props.C88_rename_partial",
    "Styx.Props.C88_id_false",
    "Styx.Props.C88_braces_false",
    "Styx.Props.C88_second_false",
    "Styx.Props.C88_again_false",
    "Styx.Props.C88_rename_twice_false",
    "Styx.Props.C88_rename_bare_false",
    "Styx.Props.C88_reorder_false"
   ],
   "note": "Which schema is declared: every tree. Adding a declaration and opting out: documents of the grammar of C47 (no braces around the root) without another `@schema`, names that are bare words. Renaming: every schema, documents without carriage returns whose characters are one UTF-16 unit. False in general: with braces around the root, or with an `@schema` of another form, both actions make a document that is rejected; the declaration added for a hint without a binary is not taken for a declaration, so the hint stays and its action breaks the document when taken again; a key is renamed to a name that is in use, or that needs quotes; the action that reorders is never offered, since the root object of a parsed document has no place. Not modelled: which addresses match a hint, and actions of extensions."
  },
  {
   "property": "C89",
   "status": "partial",
   "theorems": [
    "Styx.Props.C89_indent_partial",
    "Styx.Props.C89_closed_partial",
    "Styx.Props.C89_tokens_partial",
    "Styx.Props.C89_other",
    "Styx.Props.C89_close_false",
    "Styx.Props.C89_twice_false",
    "Styx.Props.C89_string_false",
    "Styx.Props.C89_heredoc_false",
    "Styx.Props.C89_attribute_false",
    "Styx.Props.C89_start_false",
    "Styx.Props.C89_between_false"
   ],
   "note": "Proved for every document, balanced or not, in which no closing bracket stands right after a `>`, without carriage returns and characters of two UTF-16 units, and every cursor but the start of the document; right after a closing bracket if no opening one follows and it is not a superfluous one at the end of the document. Where the line begins after a line break that is a token, no token but blanks changes (every document). False in general: the line of a closing bracket is indented too far; indentation that the editor made is not taken into account; in a string or heredoc the indentation becomes part of the value; `{a>}` leaves the object open; one too many at a start before a bracket and between `}` and `{`; one too few after a superfluous closing bracket at the end."
  },
  {
   "property": "C90",
   "status": "proved",
   "theorems": [
    "Styx.Props.C90_split",
    "Styx.Props.C90_line",
    "Styx.Props.C90_edit"
   ],
   "note": "Every document and every cut after a newline token."
  },
  {
   "property": "C91",
   "status": "partial",
   "theorems": [
    "Styx.Props.C91_agree_partial",
    "Styx.Props.C91_others",
    "Styx.Props.C91_agree_iff_partial",
    "Styx.Props.C91_reject_partial",
    "Styx.Props.C91_false",
    "Styx.Props.C91_false_braces",
    "Styx.Props.C91_false_lone_path",
    "Styx.Props.C91_false_second_value",
    "Styx.Props.C91_false_rejected",
    "Styx.Props.C91_false_dialects",
    "Styx.Props.C91_braced_partial",
    "Styx.Props.C91_braced_false",
    "Styx.Props.C91_braced_trailing"
   ],
   "note": "False: the witnesses are a document in braces, a dotted key without value, a second value on a line, a path that comes again, a value for a part of a path, a key without value before a comma, a quoted string over two lines, a dotted key in an object, and a string that is not closed. Proved: on every document of the shared grammar (Verif/Impl/Spec.lean) with root paths in order, all four read exactly the entries the document was made of; on the shared grammar, when each accepts and so when they agree (C91_agree_iff_partial), with agreement in rejecting (C91_reject_partial). For documents in braces: what each of the four reads (C91_braced_partial), that they agree on none of them (C91_braced_false), and that nothing may stand behind the braces (C91_braced_trailing). Missing: documents outside that grammar."
  },
  {
   "property": "C92",
   "status": "partial",
   "theorems": [
    "Styx.Props.C92_ends_partial",
    "Styx.Props.C92_braced_partial",
    "Styx.Props.C92_answer",
    "Styx.Props.C92_false",
    "Styx.Props.C92_false_stray"
   ],
   "note": "False: on a document that begins with a closing brace none of the three ever ends (C92_false), nor on any list of entries followed by a closing brace that closes nothing (C92_false_stray): the loop over the root entries is entered, and the entry parser returns without an entry and without consuming the brace. Proved: they end within a linear number of steps on every document without closing braces and on every document that is an object in braces. Missing: an exact description of the documents with closing braces on which they end."
  },
  {
   "property": "C93",
   "status": "proved",
   "theorems": [
    "Styx.Props.C93_safe",
    "Styx.Props.C93_restore",
    "Styx.Props.C93_exact",
    "Styx.Props.C93_tiles"
   ],
   "note": "The contract of the tree-sitter runtime (TSLexer, when states are saved and restored) is not part of the repository; it is modelled from its documentation, see the head of Verif/Editor/Scanner.lean."
  },
  {
   "property": "C94",
   "status": "partial",
   "theorems": [
    "Styx.Props.C94_raw_partial",
    "Styx.Props.C94_covers",
    "Styx.Props.C94_value",
    "Styx.Props.C94_false"
   ],
   "note": "Exact for at most 255 hashes (with more, the tokenizer saturates its count and reads a token, the editor reads none: C94_false). Covered: the external tokens along the rule raw_scalar; missing: which rule the generated LR parser is in."
  },
  {
   "property": "C95",
   "status": "partial",
   "theorems": [
    "Styx.Props.C95_heredoc_partial",
    "Styx.Props.C95_covers",
    "Styx.Props.C95_injection",
    "Styx.Props.C95_opening_false",
    "Styx.Props.C95_return_false"
   ],
   "note": "An equivalence for texts in which each carriage return is followed by a line feed and openings followed by a comma or a line break; both conditions are needed (C95_opening_false, C95_return_false). Missing: which rule the generated LR parser is in."
  },
  {
   "property": "C96",
   "status": "partial",
   "theorems": [
    "Styx.Props.C96_unit",
    "Styx.Props.C96_tag_partial",
    "Styx.Props.C96_somewhere",
    "Styx.Props.C96_no_raw_payload",
    "Styx.Props.C96_dot_false",
    "Styx.Props.C96_chain_false",
    "Styx.Props.C96_raw_false"
   ],
   "note": "Units: equivalence. Tags: an exact condition (no chain, not followed by a dot or by a raw string); false for each of the others. A raw string attached to a tag is never recognised: C96_no_raw_payload says that the token provided for it cannot occur after a tag."
  },
  {
   "property": "C97",
   "status": "partial",
   "theorems": [
    "Styx.Props.C97_sound",
    "Styx.Props.C97_partial",
    "Styx.Props.C97_false",
    "Styx.Props.C97_missing_false"
   ],
   "note": "What is shown is always a key with the right name (C97_sound); the right one when the name is unique in the schema and not in parentheses (C97_partial). False otherwise: the path is ignored (C97_false), and types in parentheses are not searched (C97_missing_false). Extensions are not modelled."
  },
  {
   "property": "C98",
   "status": "partial",
   "theorems": [
    "Styx.Props.C98_sound",
    "Styx.Props.C98_partial",
    "Styx.Props.C98_false"
   ],
   "note": "Only keys with the name are listed, and every open document with such a key at its top level; uses further inside are not (C98_false), not even the one at the cursor."
  },
  {
   "property": "C99",
   "status": "partial",
   "theorems": [
    "Styx.Props.C99_answers_partial",
    "Styx.Props.C99_shows_partial",
    "Styx.Props.C99_answers_false",
    "Styx.Props.C99_map_false",
    "Styx.Props.C99_item_false"
   ],
   "note": "Answers for every path when no name leads back to itself without a field in between; shows the declared type when every type met from the root is an object with named fields (possibly named or wrapped), a list, an object with any keys, a map or a type without keys. Otherwise false: a recursive enumeration makes hover recurse for ever (C99_answers_false), the keys of an optional map are taken for fields (C99_map_false), items show nothing (C99_item_false). Enumerations, extensions and the link are left out."
  }
 ]
}