{"id": "C01", "title": "Tokenizing is lossless", "statement": "For every source text, concatenating the text of the tokens returned by repeatedly calling the tokenizer until it reports end of input gives back exactly the source text: no character is dropped, duplicated or reordered.", "quantifier": "all source texts (any length, any Unicode scalar values)", "why_tests_cant": "The set of sources is infinite and the tokenizer is modal (heredoc bodies, raw strings); a test only sees finitely many mode interleavings.", "anchors": ["crates/styx-tokenizer/src/tokenizer.rs: Tokenizer::next_token, tokenize_*"]}
{"id": "C02", "title": "Token spans are exact", "statement": "For every source text, the byte span of each token starts where the previous token's span ended (the first starts at 0), its length is the UTF-8 length of the token's text, the last span ends at the source length, and slicing the source at the span yields the token's text (so the slice is always on character boundaries).", "quantifier": "all source texts shorter than 2^32 bytes", "why_tests_cant": "Span arithmetic must agree with slicing at every character boundary of every input; samples cannot rule out one bad boundary.", "anchors": ["crates/styx-tokenizer/src/tokenizer.rs: Tokenizer::token, advance, advance_by", "crates/styx-tokenizer/src/span.rs: Span"]}
{"id": "C03", "title": "Tokenizing terminates", "statement": "From any source the tokenizer reports end of input after at most (number of characters + 1) tokens, and once it has reported end of input every further call reports end of input again at the same position.", "quantifier": "all source texts and any number of calls", "why_tests_cant": "Termination is a statement about every input; a hang on one input is invisible to sampled tests.", "anchors": ["crates/styx-tokenizer/src/tokenizer.rs: Tokenizer::next_token, tokenize_heredoc_content"]}
{"id": "C04", "title": "Token kinds describe token texts", "statement": "In every token stream: a bare scalar token is non-empty and contains no whitespace and none of { } ( ) , \" >; a quoted scalar token starts and ends with a double quote and its only unescaped quotes are these two; a whitespace token is only spaces and tabs; a newline token is LF or CRLF; a comment token starts with // and has no line break; a structural token is its one character.", "quantifier": "every token of every source text", "why_tests_cant": "Classification must hold for all characters in all contexts.", "anchors": ["crates/styx-tokenizer/src/tokenizer.rs: next_token, is_bare_scalar_char, tokenize_quoted_scalar"]}
{"id": "C05", "title": "Quoted strings round-trip", "statement": "For every string s, the text consisting of a double quote, the library's escaped form of s, and a double quote, followed by nothing, is lexed as exactly one quoted scalar whose value is s; and the formatting library's own unescape function also inverts its escape function.", "quantifier": "all strings s over all Unicode scalar values", "why_tests_cant": "Round-trip over an infinite domain with control characters, quotes, backslashes and astral characters.", "anchors": ["crates/styx-format/src/scalar.rs: escape_quoted, unescape_quoted", "crates/styx-parse/src/lexer.rs: process_escapes", "crates/styx-parse/src/parser/mod.rs: unescape_quoted", "crates/styx-tokenizer/src/tokenizer.rs: tokenize_quoted_scalar"]}
{"id": "C06", "title": "Escape validation is exact", "statement": "For every quoted scalar text, the parser reports an invalid-escape error if and only if the text contains a backslash that does not begin one of the escapes \\\\ \\\" \\n \\r \\t \\uXXXX \\u{X...}; when it reports none, decoding is the character-by-character replacement of each escape.", "quantifier": "all quoted scalar texts", "why_tests_cant": "An accepted bad escape or rejected good one can hide in any position of any string.", "anchors": ["crates/styx-parse/src/parser/mod.rs: validate_escapes, unescape_quoted", "crates/styx-parse/src/lexer.rs: process_escapes"]}
{"id": "C07", "title": "Raw strings are verbatim", "statement": "For every content c and number n of hashes such that c does not contain a double quote followed by n hashes, the text r, n hashes, quote, c, quote, n hashes is tokenized as one raw scalar whose value is exactly c (no escape processing).", "quantifier": "all contents c and all hash counts n", "why_tests_cant": "The hash count is a bounded machine integer and content is arbitrary; the interesting boundary (255/256) is not covered by tests.", "anchors": ["crates/styx-tokenizer/src/tokenizer.rs: tokenize_raw_string", "crates/styx-parse/src/lexer.rs: next_lexeme (RawScalar)"]}
{"id": "C08", "title": "Heredoc bodies are verbatim up to dedent", "statement": "For every delimiter, and body made of complete lines none of which is the (possibly indented) delimiter, the heredoc with that body and an unindented closing delimiter lexes to exactly the body; with the closing delimiter indented by n, each line loses up to n leading blanks and nothing else.", "quantifier": "all delimiters of at most 16 characters, all bodies, all indents", "why_tests_cant": "The scan for the closing line must be right for every body, including bodies that contain prefixes of the delimiter.", "anchors": ["crates/styx-tokenizer/src/tokenizer.rs: tokenize_heredoc_start, find_heredoc_delimiter, tokenize_heredoc_content", "crates/styx-parse/src/lexer.rs: dedent_heredoc"]}
{"id": "C09", "title": "Strings written bare read back bare", "statement": "Every string that the writer's can-be-bare test accepts is tokenized, when followed by a separator, as one bare scalar token with identical text.", "quantifier": "all strings accepted by can_be_bare", "why_tests_cant": "can_be_bare and the tokenizer are separate character tables that must agree on all of Unicode.", "anchors": ["crates/styx-format/src/scalar.rs: can_be_bare", "crates/styx-tokenizer/src/tokenizer.rs: is_bare_scalar_start, is_bare_scalar_char"]}
{"id": "C10", "title": "Parsing is total", "statement": "For every source text, in document mode and in expression mode, pulling events from the parser terminates and never panics.", "quantifier": "all source texts, both modes", "why_tests_cant": "A panic or hang on a single malformed document is a denial of service; malformed documents cannot be enumerated.", "anchors": ["crates/styx-parse/src/parser/mod.rs: Parser::next_event, advance, parse_atom, collect_entry_atoms", "crates/styx-parse/src/lexer.rs: next_lexeme"]}
{"id": "C11", "title": "Event spans lie in the source", "statement": "Every event's span satisfies start <= end <= source length and both ends are character boundaries, so consumers may slice the source with it.", "quantifier": "every event of every source text", "why_tests_cant": "Spans are combined from several lexemes by many code paths.", "anchors": ["crates/styx-parse/src/parser/mod.rs", "crates/styx-parse/src/events.rs: Event", "crates/styx-parse/src/lexer.rs: Lexeme::span"]}
{"id": "C12", "title": "Events are well nested", "statement": "In the event stream of every source text, start and end events match up like parentheses: object, sequence, tag and entry ends always close the most recent open start of the same kind, and everything opened is closed, also when the text contains errors.", "quantifier": "all source texts", "why_tests_cant": "Consumers keep explicit stacks; error recovery paths make sampling unconvincing.", "anchors": ["crates/styx-parse/src/parser/mod.rs: emit_*, parse_*_atom, advance"]}
{"id": "C13", "title": "Error-free entries have exactly one key and one value", "statement": "In the event stream of every source text without error events, each entry consists of exactly one key event followed by exactly one value (a scalar, unit, tag, sequence or object).", "quantifier": "all source texts whose event stream has no error", "why_tests_cant": "Many emission paths (dotted paths, attributes, implicit unit).", "anchors": ["crates/styx-parse/src/parser/mod.rs: emit_entry_in_object, emit_simple_entry, emit_dotted_path_entry, emit_atom_as_value"]}
{"id": "C14", "title": "Duplicate keys in one braced object are reported", "statement": "For every object written with braces, if two of its entries have equal keys (same text after escapes and same tag) the event stream contains a duplicate-key error; and if all keys differ it contains none for that object.", "quantifier": "all objects, any number of entries", "why_tests_cant": "Any pair of positions among any number of entries.", "anchors": ["crates/styx-parse/src/parser/mod.rs: parse_object_atom, advance_in_object, KeyValue"]}
{"id": "C15", "title": "Duplicate keys at the document root are reported", "statement": "If two top-level entries of a document have the same one-segment key, the event stream contains an error.", "quantifier": "all documents, any number of entries in any positions", "why_tests_cant": "The two entries may be arbitrarily far apart.", "anchors": ["crates/styx-parse/src/parser/mod.rs: PathState::check_and_update, emit_entry_at_root"]}
{"id": "C16", "title": "Dotted paths: accepted histories are consistent", "statement": "Over every sequence of dotted root paths fed to the path checker: a path extending a path that was given a value is rejected, a path that was closed by a later sibling is rejected when reopened under the same live parent, and an accepted sequence has the open object paths as exactly the proper prefixes of the last path.", "quantifier": "all finite histories of paths", "why_tests_cant": "State is a history-dependent machine.", "anchors": ["crates/styx-parse/src/parser/mod.rs: PathState::check_and_update"]}
{"id": "C17", "title": "Tags bind only adjacent payloads", "statement": "A tag takes as payload only an atom that starts at the byte where the tag ends; with anything in between, the tag has no payload and the atom is separate.", "quantifier": "all sources", "why_tests_cant": "Depends on exact byte adjacency under all preceding contexts.", "anchors": ["crates/styx-parse/src/parser/mod.rs: parse_atom, lexeme_can_be_tag_payload", "crates/styx-tokenizer/src/tokenizer.rs: tokenize_at_or_tag"]}
{"id": "C18", "title": "Attribute syntax is object syntax", "statement": "A non-empty run of attributes k1>v1 k2>v2 ... produces the events of one object whose entries are those keys and values in the written order.", "quantifier": "all attribute runs of any length with any atoms as values", "why_tests_cant": "Unbounded length and nesting.", "anchors": ["crates/styx-parse/src/parser/mod.rs: parse_attributes, emit_atom_as_value"]}
{"id": "C19", "title": "Tree building inverts event emission", "statement": "Feeding the event sequence of any tree (objects, sequences, scalars, units, single tags, nested to any depth) to the tree builder gives back exactly that tree.", "quantifier": "all trees", "why_tests_cant": "Unbounded nesting and width.", "anchors": ["crates/styx-tree/src/builder.rs: TreeBuilder::event, push_value, finish"]}
{"id": "C20", "title": "A parse error never yields a tree", "statement": "If the event stream contains an error event, building the tree fails with that first error; if building succeeds, there was no error event.", "quantifier": "all event sequences", "why_tests_cant": "Errors may occur at any position and depth.", "anchors": ["crates/styx-tree/src/builder.rs: event, finish", "crates/styx-tree/src/lib.rs: parse"]}
{"id": "C21", "title": "The tree builder never panics and rejects unbalanced streams", "statement": "For every event sequence the builder returns a tree or an error, and it returns the unclosed-structure error whenever some start event is left open at the end.", "quantifier": "all event sequences", "why_tests_cant": "Sequences may be arbitrary when fed by a third party.", "anchors": ["crates/styx-tree/src/builder.rs"]}
{"id": "C22", "title": "Objects behave like maps under insert and get", "statement": "After inserting a value under a key into an object, getting that key returns it, getting any other key is unchanged, the number of entries grows only for a new key, and existing entries keep their order.", "quantifier": "all objects, keys and values, any sequence of inserts", "why_tests_cant": "History of operations is unbounded.", "anchors": ["crates/styx-tree/src/value.rs: Object::get, insert, get_unit, insert_unit"]}
{"id": "C23", "title": "Path lookup follows the structure", "statement": "Looking up a path such as a.b[2].c returns exactly the value reached by following keys and indices one step at a time, and the empty path returns the value itself.", "quantifier": "all values and paths", "why_tests_cant": "Unbounded depth.", "anchors": ["crates/styx-tree/src/value.rs: Value::get, split_path"]}
{"id": "C24", "title": "Formatted values parse back to themselves", "statement": "For every value tree whose root is an object, formatting the tree as a document succeeds, and parsing the result gives the same tree (spans and the quoting style of scalars aside).", "quantifier": "all trees, options and nesting depths", "why_tests_cant": "Layout decisions depend on widths and nesting; the space of trees is infinite.", "anchors": ["crates/styx-format/src/value_format.rs: format_value, format_root", "crates/styx-format/src/writer.rs", "crates/styx-tree/src/lib.rs: parse"]}
{"id": "C25", "title": "The writer rejects mismatched ends", "statement": "Over every sequence of writer calls, ending a struct or sequence that is not the innermost open one returns an error and a key outside a struct returns an error; every other call succeeds.", "quantifier": "all call histories", "why_tests_cant": "Sequences of calls are unbounded.", "anchors": ["crates/styx-format/src/writer.rs: begin_struct, end_struct, begin_seq, end_seq, field_key"]}
{"id": "C26", "title": "The CST is lossless", "statement": "For every source text the concatenated token texts of the concrete syntax tree equal the source text, including malformed sources.", "quantifier": "all source texts", "why_tests_cant": "Every recovery path must keep every byte.", "anchors": ["crates/styx-cst/src/parser.rs: parse, bump, parse_tag_segments"]}
{"id": "C27", "title": "CST parsing terminates", "statement": "CST parsing of every source text terminates and consumes all tokens.", "quantifier": "all source texts", "why_tests_cant": "A stuck loop on one malformed input is enough to hang the editor.", "anchors": ["crates/styx-cst/src/parser.rs: parse_entries, parse_sequence, parse_entry, parse_atom"]}
{"id": "C28", "title": "Formatting never touches a source with CST errors", "statement": "If the CST parser reports an error the formatter returns the source unchanged.", "quantifier": "all sources and all options", "why_tests_cant": "All erroneous inputs.", "anchors": ["crates/styx-format/src/cst_format.rs: format_source"]}
{"id": "C29", "title": "Formatting preserves meaning", "statement": "For every source that parses without error, the formatted text parses to the same tree.", "quantifier": "all error-free sources", "why_tests_cant": "The formatter rewrites layout on every construct; sources are unbounded.", "anchors": ["crates/styx-format/src/cst_format.rs: CstFormatter"]}
{"id": "C30", "title": "Schema validation decides the declared type", "statement": "A value is accepted by a schema exactly when it conforms to it in the declarative sense of the schema language (per-type rules for scalars, objects with required, optional, default and catch-all fields, sequences, tuples, maps, unions, optionals, enums with fallback, one-of, literals, named types).", "quantifier": "all values and all schemas", "why_tests_cant": "Product of two infinite recursive domains.", "anchors": ["crates/facet-styx/src/schema_validate.rs: Validator::validate_value and validate_*"]}
{"id": "C31", "title": "Validation ignores entry order", "statement": "Permuting the entries of an object in the document does not change whether the document is valid.", "quantifier": "all documents, schemas and permutations", "why_tests_cant": "All permutations of any number of entries.", "anchors": ["crates/facet-styx/src/schema_validate.rs: validate_object, validate_map"]}
{"id": "C32", "title": "Missing and unknown fields are reported exactly", "statement": "Validating an object reports a missing-field error for exactly the named schema fields that are absent and neither optional nor default, and an unknown-field error for exactly the document keys that match no named field when there is no catch-all.", "quantifier": "all objects and object schemas", "why_tests_cant": "Any subset of fields.", "anchors": ["crates/facet-styx/src/schema_validate.rs: validate_object"]}
{"id": "C33", "title": "Validation of recursive schemas terminates", "statement": "For every schema in which no named type refers to itself without passing through a container (object, sequence, tuple, map), validation of every document terminates; without this condition it need not.", "quantifier": "all schema files and documents", "why_tests_cant": "Non-termination appears only for particular schema cycles.", "anchors": ["crates/facet-styx/src/schema_validate.rs: validate_type_ref, validate_flatten, validate_union"]}
{"id": "C34", "title": "Deprecation only warns", "statement": "Wrapping a schema in deprecated never changes whether a value is valid, and adds exactly one warning.", "quantifier": "all values and schemas", "why_tests_cant": "All schemas at all depths.", "anchors": ["crates/facet-styx/src/schema_validate.rs: validate_deprecated"]}
{"id": "C35", "title": "Suggestions are close matches", "statement": "The suggested field is one of the valid fields, at edit distance at most 2 from the unknown one ignoring case and no farther than any other candidate; the distance computed is the true edit distance.", "quantifier": "all strings and candidate lists", "why_tests_cant": "Dynamic programming over all string pairs.", "anchors": ["crates/facet-styx/src/schema_validate.rs: levenshtein, suggest_similar"]}
{"id": "C36", "title": "Embedded schemas are found", "statement": "For every list of embedded blobs placed anywhere in a binary, extraction returns every embedded schema, in order of position.", "quantifier": "all binaries, all positions, all surrounding bytes", "why_tests_cant": "Accidental magic bytes and false positives may occur anywhere.", "anchors": ["crates/styx-embed/src/lib.rs: extract_schemas, find_magic_from, try_extract_v2_at, compress_schema"]}
{"id": "C37", "title": "Extracted schemas are authentic", "statement": "Every schema returned by extraction is the decompression of bytes present in the binary after a magic header, with the recorded length and recorded hash.", "quantifier": "all byte strings", "why_tests_cant": "Adversarial inputs.", "anchors": ["crates/styx-embed/src/lib.rs: try_extract_v2_at, try_extract_v1_at"]}
{"id": "C38", "title": "Extraction never reads out of bounds", "statement": "For every byte string extraction terminates without an out-of-range slice.", "quantifier": "all byte strings and all header values", "why_tests_cant": "Header lengths are attacker controlled.", "anchors": ["crates/styx-embed/src/lib.rs: try_extract_v2_at, try_extract_v1_at, find_magic_from"]}
{"id": "C39", "title": "Editor positions round-trip", "statement": "For every document and every byte offset on a character boundary, converting the offset to a line/column position and back returns the offset.", "quantifier": "all documents and offsets", "why_tests_cant": "Off-by-one at line ends of any document.", "anchors": ["crates/styx-lsp/src/server.rs: offset_to_position, position_to_offset"]}
{"id": "C40", "title": "Semantic token deltas decode to the tokens", "statement": "For every list of tokens in document order, decoding the delta-encoded tokens gives back line, column, length, type and modifiers, and no subtraction underflows.", "quantifier": "all token lists in document order", "why_tests_cant": "Unbounded lists.", "anchors": ["crates/styx-lsp/src/semantic_tokens.rs: encode_tokens"]}
{"id": "C41", "title": "The editor formatting edit produces the formatted text", "statement": "Applying the text edit returned by the language server's format request to the document gives exactly the formatted text.", "quantifier": "all documents", "why_tests_cant": "Depends on the final line terminator of each document.", "anchors": ["crates/styx-lsp/src/server.rs: formatting"]}
{"id": "C42", "title": "Serde values round-trip", "statement": "For every value of a serde data type built from booleans, integers, strings, options, sequences, structs and string-keyed maps, deserializing its serialization gives the value back.", "quantifier": "all values of all such types", "why_tests_cant": "Infinite types and values; serializer and deserializer are separate code.", "anchors": ["crates/serde_styx/src/ser.rs", "crates/serde_styx/src/de.rs", "crates/styx-format/src/writer.rs"]}
{"id": "C43", "title": "Version bumps increase and reflect the change class", "statement": "For every version a.b.c the computed next version is strictly greater; breaking changes bump the major (the minor when major is 0), additive changes bump the minor, otherwise the patch.", "quantifier": "all versions and change sets", "why_tests_cant": "All numbers.", "anchors": ["crates/styx-cli/src/main.rs: calculate_next_version"]}
{"id": "C44", "title": "Schema comparison is sound for removals and additions", "statement": "Comparing a schema with itself reports no change; a removed type, named field or enum variant, a type whose tag changes and an added required field are always reported as breaking, and nothing else is.", "quantifier": "all pairs of schema documents", "why_tests_cant": "All pairs of schemas.", "anchors": ["crates/styx-cli/src/main.rs: compare_schemas, compare_object_fields, compare_enum_variants"]}
{"id": "C45", "title": "Highlighting only adds colour codes", "statement": "Removing the inserted escape codes from the highlighted output gives the source, for every list of spans in document order that do not overlap.", "quantifier": "all sources and span lists", "why_tests_cant": "All sources.", "anchors": ["crates/styx-cli/src/main.rs: highlight_styx"]}
{"id": "C46", "title": "The schema declaration is stripped and nothing else", "statement": "Before validation every top-level @schema entry is removed and all other entries are kept in order; stripping twice is the same as once.", "quantifier": "all documents", "why_tests_cant": "All documents.", "anchors": ["crates/styx-cli/src/main.rs: strip_schema_declaration", "crates/styx-lsp/src/schema_validation.rs: strip_schema_declaration"]}
{"id": "C47", "title": "Layout does not change meaning", "statement": "However a document is laid out — blanks, line breaks, comments, commas between entries, any spelling of its scalars, attributes or braces, at any nesting — parsing gives the tree its entries describe, or a key error when its root paths conflict; two layouts of the same entries give the same tree.", "quantifier": "all texts of all documents in the written grammar, of any size and nesting", "why_tests_cant": "Layouts and trees are both infinite, and interact in every nesting.", "anchors": ["crates/styx-tree/src/lib.rs: parse", "crates/styx-parse/src/parser/mod.rs", "crates/styx-parse/src/lexer.rs"]}
{"id": "C48", "title": "Writing never damages what was written", "statement": "No call of the writer panics or changes text that was written before, except that separators between fields may become line breaks and line breaks may be inserted after opening braces; keys and strings already written stay as they are.", "quantifier": "all histories of calls and all options", "why_tests_cant": "The writer patches its output at remembered byte positions, which depends on the whole history of calls.", "anchors": ["crates/styx-format/src/writer.rs: write_doc_comment_and_key, fix_comma_separators, propagate_multiline_to_parents"]}
{"id": "C49", "title": "Formatting changes only layout", "statement": "For every source, the formatted text has the same characters in the same order as the source, apart from blanks, line ends and commas: no key, value, tag, bracket or comment is lost, added or moved.", "quantifier": "every source text and every indentation made of blanks", "why_tests_cant": "a formatter test compares a few documents; losing a comment or a second value depends on where it stands in an arbitrary tree", "anchors": ["crates/styx-format/src/cst_format.rs: format_source, CstFormatter"]}
{"id": "C50", "title": "Validation does not depend on hash map order", "statement": "Whether a document is valid does not depend on the order in which the hash maps of the schema are iterated: two runs on the same document and schema agree.", "quantifier": "all values, schemas and iteration orders of the schema's tables", "why_tests_cant": "The order is chosen by a per-process random seed; a test sees a few orders.", "anchors": ["crates/facet-styx/src/schema_validate.rs: find_enum_fallback, validate_object", "crates/facet-styx/src/schema_types.rs: ObjectSchema, EnumSchema"]}
{"id": "C51", "title": "Positions and token lengths sent to editors mean what the protocol says", "statement": "A position that the language server sends or receives denotes, under the protocol's default encoding (UTF-16 columns; \\n, \\r\\n and \\r end lines), the intended place of the document; the length of a semantic token is that of its text.", "quantifier": "all documents, offsets, positions and tokens", "why_tests_cant": "Tests use ASCII documents with \\n; the difference shows only for other characters.", "anchors": ["crates/styx-lsp/src/server.rs: offset_to_position, position_to_offset", "crates/styx-lsp/src/semantic_tokens.rs: compute_semantic_tokens"]}
{"id": "C52", "title": "Positions in the extension host round-trip", "statement": "For every document and every offset on a character boundary, the extension host converts the offset to a position and back to the offset, without a panic.", "quantifier": "all documents and offsets", "why_tests_cant": "Off-by-one at line ends and multi-byte characters of any document.", "anchors": ["crates/styx-lsp-ext/src/lib.rs", "crates/styx-lsp/src/extensions.rs: offset_to_position, position_to_offset"]}
{"id": "C53", "title": "Changes that reject valid documents are breaking", "statement": "When a document is valid under a schema and not under a later one, comparing the schemas reports a breaking change.", "quantifier": "all pairs of schemas and all documents", "why_tests_cant": "All pairs of schemas; two pieces of code (comparison and validation) must agree on all of them.", "anchors": ["crates/styx-cli/src/main.rs: compare_schemas", "crates/facet-styx/src/schema_validate.rs: validate_document"]}
{"id": "C54", "title": "Reading with serde always ends", "statement": "Deserializing any text as any type returns a value or an error: it does not panic and does not loop.", "quantifier": "all texts and all types of the serde data model (without floats)", "why_tests_cant": "Malformed texts of any length read as any type.", "anchors": ["crates/serde_styx/src/de.rs", "crates/serde_styx/src/lib.rs: from_str"]}
{"id": "C55", "title": "Enums and tuples round-trip through serde", "statement": "For every value of an enum or a tuple, deserializing its serialization gives the value back, on its own and inside other values.", "quantifier": "all enum and tuple types and their values", "why_tests_cant": "Infinite types and values.", "anchors": ["crates/serde_styx/src/ser.rs", "crates/serde_styx/src/de.rs: deserialize_enum, deserialize_tuple"]}
{"id": "C56", "title": "Structs are read whatever the order of fields", "statement": "A struct is read from a text that lists its fields in any order, with other fields between them that the struct does not know, and without optional fields that are absent; the result is the same as without the unknown fields.", "quantifier": "all structs, orders and unknown fields with values of any nesting", "why_tests_cant": "Unknown values must be skipped exactly, whatever they contain and whatever follows them.", "anchors": ["crates/serde_styx/src/de.rs: skip_value, next_key_seed, deserialize_ignored_any"]}
{"id": "C57", "title": "Typed reading sees the same document as the tree", "statement": "For every source, the events that facet_styx deserializes from describe the same document as the tree of styx_tree: the same entries in the same order, keys with tags and doc comments, values of the same shape with the same texts; only schema declarations at the root are left out.", "quantifier": "every source text", "why_tests_cant": "Two independent consumers of the parser's events must agree on every document: nested tags, units, attributes, doc comments and skipped declarations in any combination.", "anchors": ["crates/facet-styx/src/parser.rs: convert_event, next_event, skip_schema_value", "crates/styx-tree/src/builder.rs"]}
{"id": "C58", "title": "Typed reading reports the first error and never panics", "statement": "For every source, reading all events of facet_styx gives the first error of the parser with its position if there is one, and otherwise ends without error or panic.", "quantifier": "every source text, documents and single values", "why_tests_cant": "Depth counters and slices of the source that panic when out of step, on arbitrarily malformed input.", "anchors": ["crates/facet-styx/src/parser.rs: next_event, convert_event, skip_schema_value"]}
{"id": "C59", "title": "Peeking changes nothing", "statement": "At every point, the event peeked is the event that is read next, and everything read after a peek is what would have been read without it.", "quantifier": "all states of the parser, that is all sources and histories of calls", "why_tests_cant": "Peeking moves the parser ahead and queues events; the order must survive every interleaving.", "anchors": ["crates/facet-styx/src/parser.rs: peek_event, next_event"]}
{"id": "C60", "title": "Skipping a value skips exactly that value", "statement": "When the next events are those of one value, however deeply nested, skipping consumes them and nothing else; skipping always ends.", "quantifier": "all states of the parser and all values", "why_tests_cant": "Nesting of structs, sequences and variant tags of any depth.", "anchors": ["crates/facet-styx/src/parser.rs: skip_value"]}
{"id": "C61", "title": "A type hint affects the value it was given for", "statement": "A hint makes the next scalar be read as that type when its text is of that type and as text otherwise, and affects nothing else.", "quantifier": "all states, hints and texts", "why_tests_cant": "All texts, and all orders of hints, peeks and reads.", "anchors": ["crates/facet-styx/src/parser.rs: hint_scalar_type, parse_scalar"]}
{"id": "C62", "title": "Restoring returns to the save point", "statement": "After a save and any calls, restore brings the parser back to where it was saved.", "quantifier": "all states and histories of calls", "why_tests_cant": "All histories between save and restore, including further saves.", "anchors": ["crates/facet-styx/src/parser.rs: save, restore"]}
{"id": "C63", "title": "The browser functions agree", "statement": "For every source, validate returns true exactly when parse reports success, that is no diagnostics, and to_json succeeds exactly then; the diagnostics are the errors of the parser in order.", "quantifier": "every source text", "why_tests_cant": "Three functions run the parser or the tree builder separately; agreement must hold on all sources.", "anchors": ["crates/styx-wasm/src/lib.rs: parse, validate, to_json"]}
{"id": "C64", "title": "JSON to Styx and back", "statement": "For every JSON object, converting it to Styx with from_json and back with to_json gives the same JSON value, members in the same order.", "quantifier": "all JSON objects of any size and nesting", "why_tests_cant": "Infinite values; conversion, formatter and parser must agree on all of them.", "anchors": ["crates/styx-wasm/src/lib.rs: from_json, json_to_value, needs_quoting, to_json", "crates/styx-format/src/value_format.rs"]}
{"id": "C65", "title": "Styx to JSON loses nothing", "statement": "For every document that parses, everything in it is found in the result of to_json: following the same names and indices in the document and in the JSON value leads to values that look the same, and entries keep their order.", "quantifier": "all documents and all paths in them", "why_tests_cant": "All documents; a lost entry depends on which keys meet in one object.", "anchors": ["crates/styx-wasm/src/lib.rs: to_json, value_to_json, key_to_string"]}
{"id": "C66", "title": "The JSON of the command line loses nothing", "statement": "For every document that parses, everything in it is found in the JSON that --json-out writes, scalars with exactly their text.", "quantifier": "all documents and all paths in them", "why_tests_cant": "All documents; a lost entry depends on which keys meet in one object.", "anchors": ["crates/styx-cli/src/main.rs: value_to_json, payload_to_json"]}
{"id": "C67", "title": "Typed values round-trip through facet_styx", "statement": "For every value, reading what facet_styx::to_string writes (or to_string_compact, read as an expression) gives no error and describes the value that was serialized, with the texts of its scalars, the order and doc comments of its fields, and its tags.", "quantifier": "all values, that is all sequences of serializer calls that a value makes, and all formatting options", "why_tests_cant": "Infinite values; serializer, writer, tokenizer and parser must agree on all of them.", "anchors": ["crates/facet-styx/src/serializer.rs", "crates/styx-format/src/writer.rs", "crates/facet-styx/src/parser.rs"]}
{"id": "C68", "title": "C programs see the tree", "statement": "For every text, styx_parse returns a document exactly when styx_tree parses the text, and an error message otherwise; walking over the document with the C functions gives exactly the tree of the text (tags, texts, order of entries and items), and paths and keys lead to the same values as in Rust.", "quantifier": "all texts, all values in their trees, all paths", "why_tests_cant": "All documents; C strings cannot hold all texts.", "anchors": ["crates/styx-ffi/src/lib.rs: styx_parse, styx_document_get, styx_value_*, styx_object_*, styx_sequence_*"]}
{"id": "C69", "title": "C programs that follow the rules are memory safe and do not leak", "statement": "In every history of calls where handles are used only while their document lives and everything is freed at most once, no call has undefined behaviour and the process ends only if the parser panics; equal calls on a living document give equal answers whatever happens in between; every returned string is the caller's own and keeps its bytes until it is freed; when all documents and strings are freed nothing is left.", "quantifier": "all histories of calls of any length, with any number of documents, including null pointers", "why_tests_cant": "All interleavings of calls; use after free and leaks show only in certain orders.", "anchors": ["crates/styx-ffi/src/lib.rs: styx_free_document, styx_free_string, all functions"]}
{"id": "C70", "title": "Formatting a formatted document changes nothing", "statement": "For a document the parser accepts, formatting the text that the source formatter produced gives that same text again, so that format-on-save never keeps changing a file and a check for formatted files accepts what the formatter wrote.", "quantifier": "every source text, every indentation of blanks, every number of further passes", "why_tests_cant": "A test formats a few files twice; whether the second pass finds the same layout decisions (inline or multi-line, blank lines, comments, joined sequences) depends on every combination of nesting, comments and line breaks.", "anchors": ["crates/styx-format/src/cst_format.rs: format_source, format_cst, CstFormatter", "crates/styx-cst/src/parser.rs: parse"]}
{"id": "C71", "title": "Warnings for duplicate keys and mixed separators are exact", "statement": "The validation of a concrete syntax tree (the source of the editor's warnings) reports a duplicate key exactly at each key that an earlier entry of the same document or object already gave, however far apart the two are and also in documents with errors; it reports mixed separators exactly for the objects that use both commas and line breaks; it reports nothing else; and every reported range lies in the source on character boundaries.", "quantifier": "every source text, with or without errors; every depth of nesting and every distance between the two entries", "why_tests_cant": "Tests check a few pairs of equal keys; whether every pair is found, at the right place and without false alarms, concerns all spellings of keys, all nestings and all broken documents.", "anchors": ["crates/styx-cst/src/validation.rs: validate, validate_document", "crates/styx-cst/src/ast.rs: Key::text_content, Object::separator", "crates/styx-lsp/src/server.rs: publish_diagnostics"]}
{"id": "C72", "title": "The places noted in a document tree are right", "statement": "Every node, tag and payload of a tree read from a source notes the bytes it stands for, and these notes are true: each covers a piece of the source between two characters; nothing below the root is without one; at the place of a bare scalar the source has exactly its text, at that of a quoted one a quoted text that stands for it, at that of a tag the tag; in every object and sequence the places follow each other in the order of the entries and items, without overlap; a key stands before its value; and what is inside a node is inside the node's place.", "quantifier": "every source text that is read without errors, every node of its tree at every depth", "why_tests_cant": "Tests look at the places of a few small documents; error messages, hover, navigation and edits slice the source at these places, and one wrong place among all texts, depths, escapes and multi-byte characters underlines, replaces or slices the wrong text.", "anchors": ["crates/styx-tree/src/builder.rs: TreeBuilder::event, push_value", "crates/styx-tree/src/value.rs: Value, Tag, Payload", "crates/styx-parse/src/parser/mod.rs: emit_atom_as_value, emit_dotted_path_entry", "crates/styx-lsp/src/server.rs: find_path_in_value"]}
{"id": "C73", "title": "The path at the cursor is the path of what the cursor is on", "statement": "For every document and every cursor position, the path the language server works with is the path of what stands there: with the cursor on a key, the path of that key; with the cursor on a value or item and on nothing further inside it, the path of that value or item; and no path when the cursor is on neither. At most one path is at a cursor.", "quantifier": "every source text that is read without errors, every byte offset, nodes at every depth", "why_tests_cant": "Tests try the cursor at a few places of small documents; hover, navigation and every request to an extension start from this path, at any byte of any document, including nested objects and sequences, keys without text and neighbouring places that touch.", "anchors": ["crates/styx-lsp/src/server.rs: find_path_at_offset, find_path_in_value"]}
{"id": "C74", "title": "Completion works with the closest object and tagged value around the cursor", "statement": "For every document and every cursor position, the object the language server offers completions for is the closest object around the cursor, with the path that leads to it, and the root when there is none closer; the tagged value it works with is the closest tagged value around the cursor, and none when there is none; and finding them looks at each node a bounded number of times.", "quantifier": "every source text that is read without errors, every cursor position, nodes at every depth; sources of every size for the cost", "why_tests_cant": "Tests put the cursor into a few small documents; completions are asked for at any place of any document, at every depth, with cursors at the edges of neighbouring values, and cost that doubles with every level only shows on deep documents.", "anchors": ["crates/styx-lsp/src/schema_validation.rs: find_object_at_offset, find_object_at_offset_recursive, find_tagged_context_at_offset, find_tagged_context_recursive"]}
{"id": "C75", "title": "The language server answers from the latest text of an open document", "statement": "For every sequence of open, change and close notifications and every interleaving of their handlers, once the handlers are done a document is stored with the latest version and text the client sent, together with what the parsers make of that text, a closed document is not stored, and the diagnostics shown are those of the latest text; and the handlers can always finish.", "quantifier": "every history of notifications and commands for every number of documents, every interleaving of the handlers", "why_tests_cant": "A test sends one notification and waits for it; the order in which concurrent handlers store and publish depends on the schedule.", "anchors": ["crates/styx-lsp/src/server.rs: did_open, did_change, did_close, execute_command, publish_diagnostics, DocumentState"]}
{"id": "C76", "title": "Every request to the language server is answered", "statement": "For every set of requests and every interleaving of their handlers in which each of them has its turn again and again, every request is answered: the server never reaches a state in which handlers wait for each other.", "quantifier": "every number of requests of every kind, every number of calls an extension makes back, every fair schedule", "why_tests_cant": "Tests run one request at a time with an extension that answers from what it was given; a deadlock needs a change to arrive between taking the lock and a call back of the extension.", "anchors": ["crates/styx-lsp/src/server.rs: goto_definition, hover, completion, code_action, execute_command, inlay_hint, did_open, did_change, did_close", "crates/styx-lsp/src/extensions.rs: StyxLspHostImpl"]}
{"id": "C77", "title": "An extension is launched only when the user has allowed it, and only once", "statement": "For every history of opened and changed documents, allowed commands and every interleaving of the handlers, the language server launches a process only for a command the user has allowed before, at most one process is launched for a schema, a call that says the extension is running is right, and allowing the command that was refused is enough for it to be launched.", "quantifier": "every list of allowed commands, every history of requests for every number of schemas, every interleaving, every outcome of launching", "why_tests_cant": "Tests check a few commands against a few allowlists and make one call at a time; commands come from schemas written by others, and calls overlap when several documents are opened.", "anchors": ["crates/styx-lsp/src/extensions.rs: ExtensionManager, is_allowed, allow, get_or_spawn, spawn_extension"]}
{"id": "C78", "title": "What the user allowed stays allowed, and nothing else is", "statement": "The extensions a user allows are written to a configuration file and every language server started later allows exactly those: the commands in the file at first and the commands allowed since. No server allows a command that was never allowed nor written into the file, and a running server never forgets one.", "quantifier": "every content of the configuration file, every list of commands, every history of servers started, commands allowed in any of them and edits of the file by the user", "why_tests_cant": "Tests save and load one short list; users start several editors, edit the file by hand, and commands come from schemas written by others.", "anchors": ["crates/styx-lsp/src/config.rs: load_config, save_config, StyxUserConfig", "crates/styx-lsp/src/extensions.rs: ExtensionManager::new, allow"]}
{"id": "C79", "title": "The outline shows every named entry at its place", "statement": "For every document that parses, the outline request succeeds and lists exactly the named entries, in order and nested as in the document, each with the kind of its value. The selection range of a symbol is the key in the source and lies in the range of the symbol, the detail of a string is its text, symbols of one level do not overlap, and children lie in the range of their parent.", "quantifier": "every source that parses, every symbol at every depth", "why_tests_cant": "Tests look at the outline of one document; multi-byte characters, dotted keys, missing values and tags shift the places that are sliced, and editors drop the whole outline when one range is not in order.", "anchors": ["crates/styx-lsp/src/server.rs: document_symbol, collect_document_symbols, offset_to_position"]}
{"id": "C80", "title": "Filling in missing fields adds them to the object", "statement": "When the user takes the action to fill in required fields, the document afterwards parses, and the object at the cursor has its former entries followed by the required fields of the schema it lacked, each with the value proposed for it; nothing else changes.", "quantifier": "all documents, cursors, schemas and field names", "why_tests_cant": "The place is found by looking at lines from the end, so it depends on every layout of the document: braces, strings over lines, comments, dotted keys.", "anchors": ["crates/styx-lsp/src/server.rs: code_action, find_field_insert_position, generate_fields_text", "crates/styx-lsp/src/schema_validation.rs: find_object_at_offset, get_schema_fields_at_path"]}
{"id": "C81", "title": "The server offers the fields of the schema the validator uses", "statement": "For every schema and path, finding the schema at the path and its fields ends without a panic; in a valid document the object at the path is accepted by the schema found, and the fields offered as required are those the validator reports as missing.", "quantifier": "all schemas, paths and documents", "why_tests_cant": "Recursive types, aliases, maps with any number of types, catch-all keys, tags and wrappers combine without bound.", "anchors": ["crates/styx-lsp/src/schema_validation.rs: get_schema_at_path, get_schema_fields_at_path, resolve_type_reference, collect_object_fields, unwrap_field_modifiers", "crates/facet-styx/src/schema_validate.rs: validate_object"]}
{"id": "C82", "title": "The value proposed for a missing field is a valid one", "statement": "For every schema of a field, the text the language server inserts as the value of the field is read by the parser as one value, and the validator accepts that value for the schema of the field.", "quantifier": "all schemas", "why_tests_cant": "Schemas nest without bound, and each wrapper, bound and combination has to be met by text chosen without running the validator.", "anchors": ["crates/styx-lsp/src/schema_validation.rs: generate_placeholder", "crates/styx-lsp/src/server.rs: generate_fill_required_edit", "crates/facet-styx/src/schema_validate.rs: validate_value"]}
{"id": "C83", "title": "Completion offers the missing fields and replaces the word before the cursor", "statement": "For every document, schema and cursor position the items offered are fields that the schema declares and the object lacks; none is left out unless there are more than fifty, and then those that match the word typed, or that are required, come first. Accepting an item replaces exactly the word before the cursor by the name of the field.", "quantifier": "all documents, schemas, cursor positions and words", "why_tests_cant": "Scoring, stable sorting, truncation and the byte arithmetic of the word range must work for every text, position and number of fields.", "anchors": ["crates/styx-lsp/src/server.rs: completion, get_word_range_at_position, schema_to_type_str"]}
{"id": "C84", "title": "Validation errors are shown at the part of the document they are about", "statement": "For every document and schema, every error and warning of validation is about a value of the document that its path leads to (or a field missing in it, or one of its keys), carries the place of that value or key, and the editor marks exactly the text of that value or key.", "quantifier": "all documents, schemas and errors", "why_tests_cant": "Paths and places are built while descending through arbitrary combinations of schema and document; the editor falls back to looking up the path when a place is missing.", "anchors": ["crates/facet-styx/src/schema_validate.rs: validate_value", "crates/styx-lsp/src/server.rs: compute_diagnostics", "crates/styx-lsp/src/schema_validation.rs: find_value_by_path, get_error_span"]}
{"id": "C85", "title": "The editor marks a document as broken exactly if it cannot be read", "statement": "For every document, the diagnostics the language server sends on opening or changing it contain a syntax error if the parser rejects the document, at the text the parser complains about, and no syntax error if the parser accepts it, whatever schema the document has.", "quantifier": "all documents", "why_tests_cant": "Two independent parsers decide what is reported, one with recovery for the concrete syntax tree and one for the tree; that they agree has to hold for every document.", "anchors": ["crates/styx-lsp/src/server.rs: compute_diagnostics, did_open, execute_command", "crates/styx-cst/src/parser.rs: parse", "crates/styx-tree/src/lib.rs: parse"]}
{"id": "C86", "title": "The Go code generated from a schema is complete and checks what the schema demands", "statement": "For every schema file, the Go code that is generated has for each object a struct with one field per named field, under different Go names and with the Go type for the field's schema; each type it uses is declared in it; and for every value of such a struct, `Validate` reports exactly the bounds of the schema the value violates.", "quantifier": "all schema files and all values of the generated structs", "why_tests_cant": "The types are collected over the whole file in any order of its entries, with nested objects registered on the way; whether a name is declared, or overwritten by another, depends on the whole file, and what `Validate` reports depends on the value.", "anchors": ["crates/styx-gen-go/src/lib.rs: generate, generate_type_definition, generate_validation_function", "crates/styx-gen-go/src/types.rs: TypeMapper, map_schema_type, map_field, type_name, extract_constraints, to_pascal_case"]}
{"id": "C87", "title": "The schema generated from a Rust type accepts the documents of the type and no others", "statement": "For every Rust type with reflection data, the schema file generated from it defines each type it refers to, exactly once and no unrelated ones; the validator accepts with it every document that is a way of writing a value of the type, and a document it accepts is a way of writing such a value, but for the ranges of integers and for tags outside enums.", "quantifier": "all families of Rust types (structs, tuple structs, enums, containers, recursion), and all documents", "why_tests_cant": "The definitions are collected by a queue over the graph of types, which may be cyclic; whether a reference is defined, and whether a schema takes a document, depends on the whole graph and on a document of any depth.", "anchors": ["crates/facet-styx/src/schema_gen.rs: schema_file_from_type, SchemaGenerator, shape_to_schema, struct_to_schema, enum_to_schema, generate_pending_schemas", "crates/facet-styx/src/schema_validate.rs: validate_document"]}
{"id": "C88", "title": "The editor's quick fixes do what they say", "statement": "A document declares the schema of the first entry at its root that has one of the forms of a declaration. The action that adds the declaration of a hint, and the action that opts out, leave the other entries of the document as they are, the document then declares this schema, or none, and the hint is gone. The action that renames an unknown key replaces the text of this key, and nothing else, by the suggestion. The action that reorders fields is offered for documents whose fields are in another order than in the schema.", "quantifier": "all documents, schemas, errors of validation and hints", "why_tests_cant": "Where the edit lands depends on the place of the key in the tree and on how positions are counted; whether the document is still read, and as what, depends on all entries of the document and on how paths at the root open and close.", "anchors": ["crates/styx-lsp/src/schema_validation.rs: find_schema_declaration", "crates/styx-lsp/src/schema_hints.rs: HintMatch::schema_declaration", "crates/styx-lsp/src/server.rs: code_action, generate_reorder_edit"]}
{"id": "C89", "title": "A new line is indented by the brackets that are open", "statement": "After Enter the editor is told to indent the line of the cursor by one step for each bracket that is open at the cursor, and to change nothing else of the document, whether the document can be read or not; the step is a tab or the number of spaces the editor is set to. Other typed characters cause no edit.", "quantifier": "all documents (also broken ones), cursors and settings of the editor", "why_tests_cant": "The depth is read off the syntax tree of a document that is being typed and is broken in most moments; it must be right for every way in which brackets are missing or superfluous.", "anchors": ["crates/styx-lsp/src/server.rs: on_type_formatting, find_nesting_depth_cst", "crates/styx-cst/src/parser.rs: Parser"]}
{"id": "C90", "title": "Lines are tokenized independently of each other", "statement": "A document can be cut after every line break that is not part of a string or heredoc: its tokens are those of the first part followed by those of the second part, moved by the length of the first. So editing what follows such a line break does not change the tokens before it, editing what precedes it only moves the tokens after it, and whether a line ends there is decided by the text before alone.", "quantifier": "all pairs of texts", "why_tests_cant": "Every scanner looks ahead, some over many lines; that none looks past the line break is a claim about all texts that could follow.", "anchors": ["crates/styx-tokenizer/src/tokenizer.rs: Tokenizer::next_token"]}
{"id": "C92", "title": "The other implementations answer every document", "statement": "The parsers of the Python, JavaScript and Go implementations end on every document, with its entries or an error.", "quantifier": "all documents and the three implementations", "why_tests_cant": "A loop that does not end shows only on the input that enters it; that there is no such input is a claim about all texts.", "anchors": ["implementations/styx-py/styx/parser.py: Parser.parse", "implementations/styx-js/src/parser.ts: Parser.parse", "implementations/styx-go/parser.go: parser.parse"]}
{"id": "C91", "title": "The implementations agree", "statement": "The Rust, Python, JavaScript and Go implementations read the same documents, and give each the same entries, apart from spans and doc comments.", "quantifier": "all documents and the four implementations", "why_tests_cant": "The compliance corpus compares the implementations on a fixed set of files; that four separately written lexers and parsers give one answer is a claim about all texts.", "anchors": ["compliance/README.md", "crates/styx-tree/src/lib.rs: parse", "implementations/styx-py/styx/parser.py: parse", "implementations/styx-js/src/parser.ts: parse", "implementations/styx-go/styx.go: Parse"]}
{"id": "C93", "title": "The editor's scanner is safe and survives saving and restoring", "statement": "In every history of the tree-sitter scanner (restore any saved state, scan any text with any set of valid tokens, save the state after a token) each call ends, stays inside its memory, and saves at most 21 bytes; what it finds depends only on the state that was restored, and is what a scanner that had never been saved would find; each token is the text at its place.", "quantifier": "all histories of the scanner, all texts and all sets of valid tokens", "why_tests_cant": "Editors restore old states after every keystroke, on texts that are seldom valid; the histories are unbounded and an overrun or a stale byte shows only in some of them.", "anchors": ["crates/tree-sitter-styx/src/scanner.c: tree_sitter_styx_external_scanner_scan, tree_sitter_styx_external_scanner_serialize, tree_sitter_styx_external_scanner_deserialize"]}
{"id": "C94", "title": "The editor shows raw strings where the tokenizer reads them", "statement": "Wherever the tokenizer reads a raw string the tree-sitter grammar's external tokens are its opening, its content and its closing, and they cover the same text; where the tokenizer reads none, the editor reads none; the content shown is the value the parser gives.", "quantifier": "all texts that begin with r, after any spaces and tabs", "why_tests_cant": "Two hand-written scanners for the same language; that they agree is a claim about all texts, with quotes and hashes in all arrangements.", "anchors": ["crates/tree-sitter-styx/src/scanner.c: scan_raw_string_start, scan_raw_string_content_or_end", "crates/tree-sitter-styx/grammar.js: raw_scalar", "crates/styx-tokenizer/src/tokenizer.rs: Tokenizer::tokenize_raw_string"]}
{"id": "C95", "title": "The editor shows heredocs where the tokenizer reads them", "statement": "Wherever the tokenizer reads a heredoc the tree-sitter grammar's external tokens are its opening, its language hint, its content and its closing, covering the same text and ending at the same place; where the tokenizer reads none, the editor reads none; the hint and the content that editors hand to another language are those of the tokenizer.", "quantifier": "all texts that begin with <, after any spaces and tabs", "why_tests_cant": "Two hand-written scanners for the same language; delimiters, indents, hints and line breaks come in all arrangements and the closing line may look almost like the delimiter anywhere.", "anchors": ["crates/tree-sitter-styx/src/scanner.c: scan_heredoc_start, scan_heredoc_lang, scan_heredoc_content_or_end", "crates/tree-sitter-styx/grammar.js: heredoc", "crates/styx-tokenizer/src/tokenizer.rs: Tokenizer::tokenize_heredoc_start, Tokenizer::tokenize_heredoc_content"]}
{"id": "C96", "title": "The editor shows tags and units where the tokenizer reads them", "statement": "Wherever the tokenizer reads a tag or a unit the tree-sitter grammar's external token is the same text; where it reads none, the editor reads none; a payload attached to the tag is recognised as such.", "quantifier": "all texts that begin with @, after any spaces and tabs, and all scanner states for what follows the tag", "why_tests_cant": "Two hand-written scanners for the same language; whether they agree depends on what follows the name.", "anchors": ["crates/tree-sitter-styx/src/scanner.c: scan_at_token, tree_sitter_styx_external_scanner_scan", "crates/tree-sitter-styx/grammar.js: tag, unit, _immediate_raw_scalar", "crates/styx-tokenizer/src/tokenizer.rs: Tokenizer::tokenize_at_or_tag, Tokenizer::consume_tag_segment"]}
{"id": "C97", "title": "Go to definition leads to the declaration of the field", "statement": "With the cursor on a field of a document, the language server shows the place in the schema where the field at that path is declared; with the cursor on the declaration of the schema, the schema; and nothing else is ever shown.", "quantifier": "all documents, cursors, schemas and sets of open documents", "why_tests_cant": "Names repeat, types refer to each other and nest to any depth; tests look at schemas in which each name occurs once.", "anchors": ["crates/styx-lsp/src/server.rs: goto_definition, find_field_in_schema_source, find_field_in_object, find_field_in_doc, find_schema_declaration_range"]}
{"id": "C98", "title": "Find references lists the uses of a field", "statement": "Asking for the references of a field lists its declaration and every use in the open documents with the same schema, and nothing else.", "quantifier": "all documents, cursors, schemas and sets of open documents", "why_tests_cant": "Any number of documents, any nesting.", "anchors": ["crates/styx-lsp/src/server.rs: references, find_field_in_doc, is_schema_file"]}
{"id": "C99", "title": "Hover answers and shows the declared type", "statement": "Hovering over a field shows the path, the type that the schema gives it and the comment of its declaration; the server answers for every document and schema.", "quantifier": "all documents, cursors, schemas (recursive ones included) and paths of any length", "why_tests_cant": "Schemas refer to themselves: termination and the type found depend on the shape of the whole schema.", "anchors": ["crates/styx-lsp/src/server.rs: hover, get_field_info_in_type, resolve_type_reference, extract_seq_element_type, extract_map_value_type, extract_object_catchall_value_type, extract_object_from_value_with_defs, format_field_hover"]}
{"id": "C100", "title": "The command line changes only the file it is told to write", "statement": "A run of the command line on a document changes no file but the one its arguments name as destination, and that one only if the document could be read, is correct and, when asked for, valid; without --in-place the input is never changed.", "quantifier": "all arguments, files, contents of the disk and moments at which the run is stopped", "why_tests_cant": "Every combination of options, every way in which paths can name the same file and every crash point.", "anchors": ["crates/styx-cli/src/main.rs: run_file_mode, is_same_file, write_output, read_input"]}
{"id": "C101", "title": "A successful run leaves the formatted document at its destination", "statement": "When the command line succeeds, the destination holds the whole formatted document or its JSON; when it is interrupted, the destination holds the old or the new text.", "quantifier": "all documents, arguments, former contents of the destination and moments at which the run is stopped", "why_tests_cant": "Every crash point between opening the file and its last byte, every combination of options.", "anchors": ["crates/styx-cli/src/main.rs: run_file_mode, write_output"]}
{"id": "C102", "title": "The exit code of validation tells whether the document is valid", "statement": "`--validate` ends with 0 exactly for readable, correct documents that satisfy their schema, with 1 for syntax errors, 2 for validation errors and 3 for files that cannot be read; without a destination it writes and prints nothing.", "quantifier": "all documents, schemas, ways to give the schema and contents of the disk", "why_tests_cant": "Scripts rely on the code for every document and every way in which a schema can be found.", "anchors": ["crates/styx-cli/src/main.rs: run_file_mode, run_validation, load_schema_from_ref, find_schema_declaration, resolve_schema_path, strip_schema_declaration"]}
{"id": "C103", "title": "Schemas are cached inside the cache directory, one file for each", "statement": "The language server writes cached schemas inside its cache directory only, and different schemas never share a file.", "quantifier": "all programs and identifiers a document can declare, all schemas and cache directories", "why_tests_cant": "The names come from documents anybody may have written.", "anchors": ["crates/styx-lsp/src/cache.rs: cache_dir, embedded_cache_path, content_hash", "crates/styx-lsp/src/schema_validation.rs: SchemaRef::to_uri"]}
{"id": "C104", "title": "A cached schema file holds the schema", "statement": "Whenever caching a schema has returned a path, the file there holds exactly the schema, however many servers cache it at the same time, whether or not they crash, and whether or not the cache is cleared.", "quantifier": "all schedules of any number of calls, cut at their system calls, with crashes at every point", "why_tests_cant": "Interleavings and crash points cannot be enumerated by tests.", "anchors": ["crates/styx-lsp/src/cache.rs: cache_embedded_schema, clear_cache"]}
{"id": "C105", "title": "An embedded literal embeds the string it denotes", "statement": "embed_inline! on a string literal embeds exactly the string that Rust gives to the literal.", "quantifier": "all raw string literals, and all quoted string literals as sequences of characters and escapes", "why_tests_cant": "There is no end of literals, and the macro has its own reading of them.", "anchors": ["crates/styx-embed-macros/src/lib.rs: parse_string_literal, embed_inline"]}
{"id": "C106", "title": "A schema embedded by the macros is found again by its identifier", "statement": "Every schema that names itself can be embedded; in a program with any number of embedded schemas, wherever the linker puts them, asking for the identifier of one of them gives exactly its text, if no other schema in the program has the identifier. Their symbols are identifiers, and different when the hashes of the identifiers are.", "quantifier": "all lists of schemas, all bytes around them, all compressions that can be undone and all hashes of 32 bytes", "why_tests_cant": "The bytes around the schemas are the rest of a program.", "anchors": ["crates/styx-embed-macros/src/lib.rs: extract_schema_id, sanitize_id, id_to_symbol_suffix, build_embedded_blob, generate_static", "crates/styx-embed/src/lib.rs: extract_schemas"]}
{"id": "C107", "title": "The S-expression of a document tells its tree", "statement": "Two documents with the same output of `styx tree --format sexp` have the same tree: structure, texts, kinds of scalars, tags and places. The output also tells whether the document could be read, and otherwise where the error is and its message. So comparing outputs, as the compliance suite does, compares trees.", "quantifier": "all pairs of documents, whatever their texts contain", "why_tests_cant": "The compliance suite compares the output on a corpus; whether equal output means equal trees is a question about all documents.", "anchors": ["crates/styx-cli/src/main.rs: print_sexp, print_sexp_entry, print_sexp_value, print_sexp_payload, run_tree", "crates/styx-tree/src/builder.rs: BuildError"]}
{"id": "C108", "title": "All implementations print the same S-expression of a tree", "statement": "For the same tree, or the same syntax error, the Rust, JavaScript, Python, Go and Swift programs print the same S-expression.", "quantifier": "all trees that come from documents; all syntax errors with their messages", "why_tests_cant": "Each implementation has its own printer and its own escaping.", "anchors": ["crates/styx-cli/src/main.rs: print_sexp_value", "implementations/styx-js/src/sexp.ts: documentToSexp, jsonEscape, errorToSexp", "implementations/styx-py/styx/compliance.py: format_document, escape_string, format_error"]}
{"id": "C109", "title": "Reading with a schema in JavaScript ends", "statement": "`parseTyped(source, schema)` returns or throws a syntax error for every document and every schema on which the parser itself ends; recursive types do not make it run for ever.", "quantifier": "all documents, all schemas, recursive or not", "why_tests_cant": "Schemas can be recursive in many ways, and documents of any depth are read along them.", "anchors": ["implementations/styx-js/src/typed.ts: parseTyped, toTyped, getDefaultValue, parseSchema"]}
{"id": "C110", "title": "Typed reading in JavaScript gives the document as values of the declared types", "statement": "If a document fits the schema, `parseTyped` returns the object that the document means: numbers for `@int` and `@float`, booleans, texts, lists, maps, nested objects, defaults for the fields that are left out, and nothing for optional fields that are left out. The result is of the declared type. Documents that do not fit are refused.", "quantifier": "all documents and schemas; all nestings of objects, lists, maps, optional fields, defaults and named types", "why_tests_cant": "Values, types, defaults and names combine without bound.", "anchors": ["implementations/styx-js/src/typed.ts: parseTyped, parseSchema, parseSchemaType, toTyped, getDefaultValue, toTypedAny"]}
{"id": "C111", "title": "Reading without a schema in JavaScript shows the whole document", "statement": "`parseUntyped` returns an object with one property for each entry, holding the text, list or object there; nothing of the document is lost, and it returns whenever the parser does.", "quantifier": "all documents", "why_tests_cant": "Documents have any shape and any keys.", "anchors": ["implementations/styx-js/src/typed.ts: parseUntyped, toTypedAny"]}
{"id": "C112", "title": "The parser of the Swift implementation ends", "statement": "`Parser.parse()` of the Swift implementation returns a document or throws an error for every text.", "quantifier": "all texts, whatever the Unicode properties of their characters", "why_tests_cant": "Texts are unbounded, and whether each round of each loop reads something depends on the token that it meets.", "anchors": ["implementations/styx-swift/Sources/Styx/Parser.swift: Parser.parse, parseObjectInternal, parseSequenceInternal, parseValue", "implementations/styx-swift/Sources/Styx/Lexer.swift: Lexer.nextToken"]}
{"id": "C113", "title": "The Swift implementation reads documents as the others do", "statement": "If the Rust, Python, JavaScript and Go implementations read a document as the same entries, the Swift implementation reads those entries from it; if they all reject a document, it rejects it too.", "quantifier": "all texts, whatever the Unicode properties of the characters outside ASCII", "why_tests_cant": "Texts are unbounded and nested without limit, and the parsers differ in how they split and look ahead, so that agreement on examples says nothing about other combinations.", "anchors": ["implementations/styx-swift/Sources/Styx/Parser.swift: Parser.parse", "implementations/styx-swift/Sources/Styx/Lexer.swift: Lexer.nextToken", "crates/styx-tree/src/parser.rs: parse"]}
{"id": "C114", "title": "CodeMirror's heredocs are the heredocs of the format", "statement": "In the CodeMirror mode a heredoc token starts exactly where the Rust tokenizer reads a heredoc and ends where that heredoc ends; the text given to the parser of another language is exactly the content of the heredoc, and the language is the one named after the comma.", "quantifier": "all texts", "why_tests_cant": "Heredocs have any number of lines, and any line may look almost like the closing one; the mode scans them by hand, and then once more with regular expressions whose line ends are not those of the format.", "anchors": ["editors/codemirror-styx/src/heredoc.ts: heredocTokenizer", "editors/codemirror-styx/src/index.ts: parseHeredocText, createMixedParser", "crates/styx-tokenizer/src/tokenizer.rs: tokenize_heredoc_start, tokenize_heredoc_content"]}
{"id": "C115", "title": "A malformed token is never passed over", "statement": "A text with a malformed token anywhere (a string that is not closed, an escape that does not exist, a heredoc without end) is rejected by every implementation: what is accepted has been read as tokens up to its end, and nothing behind a malformed token is dropped in silence.", "quantifier": "all texts and all positions of the malformed token", "why_tests_cant": "The lexers run on demand under a recursive parser with one token of lookahead, so whether an error is looked at depends on where in the grammar the malformed token stands; tests try a few places.", "anchors": ["crates/styx-parse/src/parser.rs: Parser::next_event", "implementations/styx-py/styx/parser.py: _advance, _peek", "implementations/styx-js/src/parser.ts: advance, peek", "implementations/styx-go/parser.go: advance, peek, parse", "implementations/styx-swift/Sources/Styx/Parser.swift: parse"]}
{"id": "C116", "title": "The report of a syntax error underlines the text the error is about", "statement": "When a document is rejected for its syntax, the report printed on the terminal underlines, in the source it shows, exactly the text the parser blames, wherever it stands and whatever is before it.", "quantifier": "all rejected documents, all kinds of syntax errors", "why_tests_cant": "The offsets handed to the report are bytes and those expected are characters; whether this shows depends on every character before the error, and the tests have ASCII sources.", "anchors": ["crates/styx-tree/src/diagnostic.rs: ParseError::render, ParseError::write_report, build_report", "crates/styx-cli/src/main.rs: main"]}
{"id": "C117", "title": "The Monaco editor colours every text as what it is in the document", "statement": "In the Monaco editor every character of a document is coloured as what the parser takes it for: keys as keys, values as values, tags, strings, escapes, heredocs and comments as such, at every depth and in every layout; and the tokens of every line are in order and cover it.", "quantifier": "all documents, at every depth, in every layout; for the tokens: all lines in all states", "why_tests_cant": "The provider goes line by line with a state that must agree with the nesting of the document across all lines before; the package has no tests of it.", "anchors": ["editors/monaco-styx/src/tokenizer.ts: StyxTokensProvider, tokenize, createInitialState"]}
{"id": "C118", "title": "A diagnostic of an extension comes back to it", "statement": "When the editor asks for actions on a diagnostic that an extension reported for the document, the extension gets its diagnostic back: the same span, severity, message, source and code, and data that says the same as the data it attached.", "quantifier": "all documents, all diagnostics, all values as data, at any depth", "why_tests_cant": "The data passes through two conversions between trees of unbounded depth, the span through two conversions of positions; the conversions have no tests.", "anchors": ["crates/styx-lsp/src/server.rs: publish_diagnostics, code_action, convert_styx_value_to_json, json_to_styx_value"]}
{"id": "C119", "title": "The edits of an extension's action reach the documents it names", "statement": "When the user takes an action an extension offers, every edit of the action is made in the document that it names, at the bytes that it names, and no other document is changed.", "quantifier": "all actions: any number of documents and edits; all texts of the documents", "why_tests_cant": "The lists of edits are collected into a map by URL; which of them collide, and which positions count characters differently, depends on the whole action and all texts.", "anchors": ["crates/styx-lsp/src/server.rs: code_action", "crates/styx-lsp-ext/src/lib.rs: WorkspaceEdit, DocumentEdit, TextEdit"]}
{"id": "C120", "title": "A hint of an extension is shown at the place it is for", "statement": "A hint that an extension places at an offset of the document, with the function of the protocol crate or by asking the host, is shown by the editor at this offset; the two ways agree.", "quantifier": "all documents and all offsets", "why_tests_cant": "Columns of bytes and of UTF-16 units agree in every ASCII text, so tests on ASCII documents pass.", "anchors": ["crates/styx-lsp-ext/src/lib.rs: Position::from_offset, Range::from_span", "crates/styx-lsp/src/server.rs: inlay_hint", "crates/styx-lsp/src/extensions.rs: offset_to_position"]}
{"id": "C121", "title": "A schema is suggested for exactly the files of the known tools", "statement": "For a file without schema declaration the server suggests the schema of a tool of the registry if and only if the file is at one of the places the registry gives for the tool, and it always suggests the same one.", "quantifier": "all absolute paths, all configuration directories, all orders of the registry in memory", "why_tests_cant": "The patterns are matched by backtracking over paths of unbounded length, and the registry is kept in a hash map with a random order.", "anchors": ["crates/styx-lsp/src/schema_hints.rs: find_matching_hint, matches_pattern, expand_pattern, load_registry", "crates/styx-lsp/registry/schema-hints.styx"]}
{"id": "C122", "title": "The editor and the command line validate alike", "statement": "The editor shows an error of the schema for a document if and only if `styx FILE --validate` does not succeed for it.", "quantifier": "all documents, declarations, schemas, contents of the file system and ways to name the file", "why_tests_cant": "The server and the command line find, load and apply the schema with two separate pieces of code; agreement ranges over all documents and file systems.", "anchors": ["crates/styx-lsp/src/schema_validation.rs: find_schema_declaration, load_source, load_schema, resolve_schema_path, extract_embedded_schema_source, extract_schema_id, resolve_schema, validate_against_schema", "crates/styx-lsp/src/server.rs: compute_diagnostics", "crates/styx-cli/src/main.rs: find_schema_declaration, load_schema_for_document, run_validation"]}
{"id": "C123", "title": "A compatible version of a published schema breaks nothing", "statement": "When schemas are published with `styx @publish`, a version that Cargo takes as compatible with an older one has all its types with their tags, all their fields and variants, and demands no new fields.", "quantifier": "all histories of publishing, with any number of runs at the same time, all schemas and all earlier versions in the registry", "why_tests_cant": "Each run compares only with the latest version; the claim is about all pairs of versions, reached by unbounded histories of interleaved runs.", "anchors": ["crates/styx-cli/src/main.rs: run_publish, extract_meta_field, fetch_latest_version, fetch_crate_schema, compare_schemas, calculate_next_version"]}
{"id": "C124", "title": "The typed views of the syntax tree show the document", "statement": "A program that reads an accepted document through the typed syntax nodes (entries, keys, values, elements, tags and their texts) finds the same keys, values, items, tags and doc comments as in the document tree.", "quantifier": "all documents in all layouts, nested to any depth", "why_tests_cant": "The views pick nodes and tokens out of a tree whose shape depends on layout, comments and nesting; a test sees a few trees.", "anchors": ["crates/styx-cst/src/ast.rs: Document::entries, Entry::key_text, Entry::value, Entry::doc_comments, Value::kind, Object::get, Sequence::elements, Scalar::text_content, Tag::name, Tag::payload, Heredoc::content, unescape_quoted"]}
{"id": "C125", "title": "A test asks an extension what the editor would ask it", "statement": "For every document and cursor, the request that the test harness sends to an extension (position, path, word, context, tagged context) is the request the language server sends when the editor's cursor is at that place, so an extension that passes its tests behaves the same in the editor.", "quantifier": "all documents, all cursors, all kinds of requests about a cursor", "why_tests_cant": "The harness has its own copies of the lookups; a test of the harness compares a few documents, and a test of an extension only ever sees one of the two sides.", "anchors": ["crates/styx-lsp/src/testing/harness.rs: TestDocument::new, completions, hover, definition, find_path_at_offset, find_context_at_offset, find_tagged_context_at_offset, get_prefix", "crates/styx-lsp/src/server.rs: completion, hover, goto_definition, get_word_range_at_position"]}
{"id": "C126", "title": "A test of an extension passes exactly if the diagnostics are the ones its file marks", "statement": "For every test file and every extension: the document the extension gets is the input without the lines of marks, and the test reports no error if and only if for every mark there is a diagnostic at exactly the marked place whose message has the quoted text in it, and the number, places, severities and absent texts that the file names are those of the answer.", "quantifier": "all test inputs, all marks and expectations, all answers of an extension", "why_tests_cant": "The runner decides whether other tests pass; its own tests show a few inputs, while a check that is too lenient stays green for exactly the wrong answers nobody tried.", "anchors": ["crates/styx-lsp/src/testing/runner.rs: parse_span_markers, try_parse_marker_line, build_diagnostic_expectations, check_diagnostics, offset_to_position, run_single_test"]}
{"id": "C127", "title": "Writing to a place of a tree changes that place and nothing else", "statement": "For every tree and every path: `get_mut` leads to the value `get` finds, and to nothing where `get` finds nothing. After something is written there, the same path finds what was written; paths inside find what is in the new value; paths that neither lead through the place nor end around it find what they found before; all other entries, keys, doc comments, tags and spans are the same; and writes to places apart from each other can be done in any order. The same holds for writing to the entries of one object or the items of one sequence, for `insert` and for `push`.", "quantifier": "all trees, all paths, all functions applied at the place, all pairs of paths", "why_tests_cant": "The accessors come in pairs with separate code for reading and writing; a test checks one path in one tree, while aliasing mistakes show only for the pairs of paths nobody tried.", "anchors": ["crates/styx-tree/src/value.rs: Value::get_mut, Value::get, as_object_mut, as_sequence_mut, Object::get_mut, Object::get_unit_mut, Object::insert, Sequence::get_mut, Sequence::push"]}
{"id": "C128", "title": "An extension that asks the host for the path of a request gets the part of the document the request is about", "statement": "The server gives an extension a path with every request and answers questions about paths. For every document and every cursor: asking for the path of the request gives the value the cursor is on, or whose key it is on; the empty path gives the document; a path that leads nowhere gives nothing; and there is a part only of a document that is open and could be read.", "quantifier": "all documents, all cursor positions, all paths, all sets of open documents", "why_tests_cant": "Making the path and following it are separate code; whether they fit depends on the keys of every object on the way, of which tests have one or two.", "anchors": ["crates/styx-lsp/src/extensions.rs: StyxLspHostImpl::get_subtree, get_document, get_source", "crates/styx-lsp/src/server.rs: find_path_at_offset"]}
{"id": "C129", "title": "The crate that `package` makes has the name, the version and the schema that were given", "statement": "For every schema file, name, version and directory: when `styx package` succeeds, the directory holds a crate whose manifest has that name and that version and whose constant is the text of the schema file; all other files are as they were; a schema that cannot be read or is no document makes it fail without changing anything; and a run interrupted at any moment never leaves a crate with the wrong name, version or schema.", "quantifier": "all schemas, names, versions and directories, all disks, all moments at which the run can be interrupted", "why_tests_cant": "Tests look at the directory after a run that went well; what the build tool would find after an interruption depends on the order of writes and on what was there before.", "anchors": ["crates/styx-cli/src/main.rs: run_package, generate_cargo_toml, generate_lib_rs, generate_readme"]}
{"id": "C130", "title": "The link and the hint at the declaration belong to the schema that the document is validated against", "statement": "For every document that declares a schema: the editor shows a link that lies exactly on the declaration and leads to a file that holds the text of the schema the document is validated against; the hint right after the declaration shows the first line of the description and the version of this schema, and its tooltip the identifier and a description of several lines; a document without a declaration gets neither and nothing is written; a request writes no file but the cached schema.", "quantifier": "all documents, schemas, files and programs, all contents of the cache", "why_tests_cant": "Tests open one document with a schema next to it; which file the link leads to depends on the path, on the programs found, and on what an earlier server left in the cache.", "anchors": ["crates/styx-lsp/src/server.rs: document_link, inlay_hint, find_schema_declaration_range, get_schema_meta", "crates/styx-lsp/src/schema_validation.rs: to_uri, resolve_schema", "crates/styx-lsp/src/cache.rs: cache_embedded_schema"]}
{"id": "C131", "title": "A test of an extension passes exactly if the answers are as the test asks", "statement": "For every test file case and every extension: the case passes exactly if the answers of the extension to the document (without the bar of the cursor and without the marks) are as the case asks: completions with the labels, details, documentation and kinds, none with the forbidden labels; a hover with the texts and without the forbidden texts; as many hints, definitions and actions, among them the ones described, at their lines; and diagnostics as in C126. A case that is expected to fail passes exactly if they are not. Running a case never panics.", "quantifier": "all cases of test files, all extensions, i.e. all answers to all requests", "why_tests_cant": "Tests of the runner run it on a few cases that pass; a runner that passes wrong answers is not noticed by any test that passes.", "anchors": ["crates/styx-lsp/src/testing/runner.rs: run_test_case, check_completions, check_hover, check_inlay_hints, check_definition, check_code_actions", "crates/styx-lsp-test-schema/src/lib.rs: TestCase, CompletionExpectations, HoverExpectations, InlayHintExpectations, DefinitionExpectations, CodeActionExpectations"]}
{"id": "C132", "title": "The debug tree of a document shows its tree", "statement": "`styx tree --format debug` prints the same text for two documents exactly if they have the same tree, up to places and doc comments.", "quantifier": "all pairs of documents that parse", "why_tests_cant": "That two different trees never print the same is about all pairs of trees of any depth; names, texts and braces could run into each other.", "anchors": ["crates/styx-cli/src/main.rs: run_tree, print_tree, print_payload, is_complex_value, print_tree_inline"]}
{"id": "C133", "title": "Tags have proper names", "statement": "The name of every tag in the tree of a document that parses, on keys and values at any depth, is a letter or underscore followed by letters, digits, underscores and hyphens (ASCII).", "quantifier": "all documents that parse, all tags of their trees", "why_tests_cant": "Names are read in several places (values, keys, chains of tags, payloads); each must check, for all texts.", "anchors": ["crates/styx-parse/src/parser/mod.rs: build_tag_chain, is_valid_tag_name, emit_atom_as_key, emit_atom_as_value", "crates/styx-tree/src/builder.rs: TreeBuilder::event, push_value"]}
{"id": "C134", "title": "An assertion on an annotated source holds exactly if the errors are the annotated ones", "statement": "`assert_annotated_errors` returns, rather than panics, exactly if the lines, columns and kinds of the actual errors are those of the annotations below the lines, each as often as it is written, in any order.", "quantifier": "all annotated sources, all lists of actual errors", "why_tests_cant": "That a greedy matching accepts exactly the permutations is about all lists with repetitions; that columns are right is about all texts.", "anchors": ["crates/styx-testhelpers/src/lib.rs: assert_annotated_errors, assert_annotated_errors_with_filename, parse_annotated_source, parse_annotation_line, span_to_line_col"]}
{"id": "C135", "title": "The source without its annotations", "statement": "`source_without_annotations` gives the lines of the source, with newlines between them, whatever annotations are written below them; a newline at the end is dropped.", "quantifier": "all annotated sources", "why_tests_cant": "Ranges over all texts and all ways to place annotations.", "anchors": ["crates/styx-testhelpers/src/lib.rs: source_without_annotations, parse_annotated_source"]}
{"id": "C136", "title": "Emacs indents a document by its depth", "statement": "Indenting a buffer in Emacs, whatever indentation it had, leaves the texts of the lines as they are and indents each line that is not blank by one step for each level: lines below one that ends with an opening bracket are one level deeper, up to the line that begins with the closing bracket. Indenting again changes nothing.", "quantifier": "all buffers, all indentations they had before, all widths of a step", "why_tests_cant": "The column of a line follows from the columns given to the lines above it, across blank lines, for buffers of any length and depth.", "anchors": ["editors/emacs-styx/styx-mode.el: styx-indent-line"]}
{"id": "C137", "title": "Completion works with a schema that cannot be read as a schema", "statement": "If the text of a schema is a document, the fields that the completion looks up in its text, at a path of field names, are exactly those that the object at that path writes, each with the text of its type. The path goes through @optional, @default and @deprecated.", "quantifier": "all texts that are documents, all paths that lead from the entry schema to a type through fields mentioned once", "why_tests_cant": "The path is followed through wrappers and unit keys nested to any depth, and the text of each type is cut from the source at any position.", "anchors": ["crates/styx-lsp/src/server.rs: get_schema_fields_from_source_at_path", "crates/styx-lsp/src/server.rs: navigate_schema_path", "crates/styx-lsp/src/server.rs: unwrap_type_wrappers", "crates/styx-lsp/src/server.rs: collect_fields_from_object", "crates/styx-lsp/src/server.rs: extract_object_from_value"]}
{"id": "C138", "title": "CodeMirror folds the object that is opened on a line", "statement": "At each line of a document the fold service of the CodeMirror package offers the inside of the innermost object or sequence that is opened on the line and closed on a later one, and nothing at lines where there is none.", "quantifier": "all texts, all syntax trees in which nodes are nested and objects and sequences have their brackets, all lines", "why_tests_cant": "The tree may be nested to any depth, and which node is found depends on all nodes around the end of the line.", "anchors": ["editors/codemirror-styx/src/index.ts: styxFoldService"]}
{"id": "C139", "title": "The reports of validation underline what they are about", "statement": "When a document does not match its schema, the command line writes a report for each error, in their order, and then one for each warning. The title of each report of an error names the field, type or variant in question or the path of the value, and its label underlines the text of the value the error is about, or of the key in question.", "quantifier": "all documents, all schemas, all errors of their validation", "why_tests_cant": "The places of errors count bytes and the labels of reports count characters, so whether the label is right depends on every character before it.", "anchors": ["crates/facet-styx/src/schema_error.rs: ValidationError::build_report", "crates/facet-styx/src/schema_error.rs: ValidationResult::write_report", "crates/styx-cli/src/main.rs: run_validation"]}
{"id": "C140", "title": "Every comment gets a semantic token", "statement": "For every document, valid or not, the editor gets for each comment a token of the type comment at the place of the comment and with its length, and the token has the modifier documentation exactly if it is a doc comment.", "quantifier": "all documents, all comments in them", "why_tests_cant": "Whether a comment is reported depends on all the nodes around it, and these nest without bound.", "anchors": ["crates/styx-lsp/src/semantic_tokens.rs: compute_semantic_tokens", "crates/styx-lsp/src/semantic_tokens.rs: walk_node"]}
