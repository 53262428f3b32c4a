# Formal model of bearcove/styx in Lean 4: design

## Layout

* `properties.jsonl` – the English properties (C01, C02, …).
* `lean/Verif/` – one directory per layer. In each layer
  * `Model*.lean` transcribes the Rust code, function by function, with file/line citations;
  * `Lemmas*.lean` holds helper lemmas;
  * `Spec*.lean` holds the small independent specifications used in statements;
  * `Props*.lean` holds the property theorems, each next to a non-vacuity `example`.
* `MANIFEST.json` – property → theorem names and status.
* `seeded/LOG.jsonl` – record of deliberate wrong edits of the model and which theorems caught them.

## Modelling conventions

* Source text is `List Char` (Lean's `Char` is exactly a Unicode scalar value, as Rust's `char`).
  Byte offsets are computed with `Char.utf8Size`.  `&str` slices are lists plus their offset.
* `u32`/`usize` offsets are unbounded `Nat` (sources are assumed shorter than 4 GiB, the limit of
  the `u32` span type).  Where a bounded integer is the point (the `u8` hash counter of raw strings)
  the bound is modelled.
* `&mut self` methods become functions returning the new state.  Panics become explicit error values.
* `while`/`loop` become structural recursion on the remaining input or on fuel; for fuel a theorem
  states that the fuel given always suffices.
* `char::is_whitespace` is the Unicode `White_Space` property, written out as its finite table.
* Float formatting/parsing, LZ4 and BLAKE3 are parameters; theorems quantify over them and state the
  assumption they need.

## Plan per property

| id | modelled | proof |
|----|----------|-------|
| C01–C03 | `Tokenizer` complete (all modes) | induction over the token loop with the invariant `consumed ++ remaining = source` |
| C04 | same | case analysis of `next_token`, lemmas per scanning loop |
| C05 | `escape_quoted`, `unescape_quoted`, lexer `process_escapes`, tokenizer | induction on the string |
| C06 | `validate_escapes`, `unescape_quoted` | equivalence with an inductive grammar of escapes |
| C07 | `tokenize_raw_string` with saturating `u8` counter, lexer delimiter stripping | induction; negation at 256 hashes |
| C08 | heredoc functions + `dedent_heredoc` | induction on body lines |
| C09 | `can_be_bare`, bare-scalar scanning | per-character inclusion + induction |
| C10–C13, C17, C18 | lexer and event parser (`parser/mod.rs`) | fuel-sufficiency, invariants on emitted events |
| C14–C16 | `parse_object_atom`, `PathState::check_and_update` | induction over entries/histories; negation for C15 (non-adjacent duplicates are missed) |
| C19–C21 | `TreeBuilder` | induction over trees and over event lists |
| C22, C23 | `Object`, `Value::get`, `split_path` | map laws by induction; lookup against a step relation |
| C24 | `value_format`, writer, whole parse pipeline | round trip by induction on trees for a fragment |
| C25 | `StyxWriter` call machine | refinement to a stack automaton |
| C26, C27 | CST parser | induction, `text = source` invariant |
| C28, C29 | `format_source` | C28 outright; C29: negation witness; for the documents of the text grammar without sequences of one heredoc, the formatted text is shown to be a text of the same entries (concrete syntax tree of a text → nodes that stand for the values → what the formatter writes for them) |
| C70 | `format_source`, CST parser | the formatted text of a document of the text grammar is described line by line, its concrete syntax tree is read off the lines, and formatting that tree is shown to write the same lines (rule induction over nodes); negation witnesses for stray commas, line breaks in empty objects and comments after doc comments |
| C71 | `validate` of styx-cst | induction over the entries (which keys were seen) and over the tree (byte offsets), for every tree; for documents of the text grammar the keys are related to the root entries; negation witnesses for spellings the validation does not see through |
| C72 | spans of `TreeBuilder` and of the parser's atoms | rule induction over parser runs (an atom's contents stand in order in its span), then induction over what the builder makes of the events of each atom, then over the run for the root; negation witnesses for dotted keys |
| C73 | `find_path_in_value` | mutual induction over trees for soundness; completeness from the order of places proved for C72; negation witness for dotted keys |
| C74 | `find_object_at_offset`, `find_tagged_context_at_offset` | mutual induction over trees; the closest one from the order of places proved for C72; the number of calls by induction over nested objects, whose texts are documents by C47; negation witnesses |
| C75 | `did_open`, `did_change`, `did_close`, `execute_command` as steps between awaits, all schedules | invariants over schedules, by induction from the end; a measure for finishing; negation witnesses |
| C76 | the use of the lock on the documents by all handlers and by the calls of extensions, a first-come lock | a measure that goes down with every step and an enabled request in every state, hence termination of every fair schedule; an invariant of blocked states for the deadlock |
| C77 | `is_allowed`, `allow`, `get_or_spawn` and `spawn_extension` as steps between awaits, all schedules | invariants over schedules, by induction from the end; negation witnesses, one for every number of changes |
| C78 | the text that is written (the facet serializer of C56 behind the fixed first line), reading it through the document tree, histories of servers and edits | the written text has the grammar of C47 and so gives back the commands; invariants over histories; negation witnesses |
| C79 | `collect_document_symbols` on the tree with its places | induction over the tree for names and kinds; the places from C72, their order carried over to positions by monotonicity of `offset_to_position`; negation witness |
| C80 | `findInsert`, `fieldsText`, `insertInfo`, `fillRequired` and the protocol's meaning of an edit | the lines of a text split at its last line of fields; the texts of two documents with a line break between are one document (grammar of C47); history of the new names is consistent; positions by C51; witnesses by evaluation |
| C81 | `schemaAt`, `resolveType`, `collectFields`, `fieldsAtPath` with fuel, panics as outcomes | accessibility of type names under `Guarded`; induction over fuel along the validator's own recursion; pointwise comparison of the two filters; witnesses by evaluation, the cycle for all fuel by induction |
| C82 | `placeholder`, `parseTree`, `validate` | mutual induction over `Proposes`, once into the text specification of C47 and once into acceptance by the validator; the false cases for all item schemas and all object declarations |
| C83 | `wordRange`, `offered`, `completion` with panics as outcomes; `to_lowercase` is a parameter | the last break by induction, positions by C51, stable sort by insertion with a lemma on what `take` keeps; witnesses by evaluation |
| C84 | `validate` as before; `findByPath`, `errorRange`; specification `PathTo`, `About`, `BehindTag` | induction on the fuel of the validator with one lemma per kind of schema; places by C72, ranges by C51; witnesses by evaluation |
| C85 | `computeDiagnostics` from both parsers and the validation of the concrete syntax tree | the texts of the grammar leave no error in the recovering parser: mutual induction on the grammar; the rest by C71, C47, C11, C51; witnesses by evaluation |
| C86 | the table of Go types, the text of the file of types and the statements of `Validate` | the fields of a struct do not depend on the table; invariant of the table over all writes, by mutual induction on schemas; Go semantics of the statements in the specification; decoding of Pascal case for names; witnesses by evaluation |
| C87 | schema generation as a function of a program of type definitions (the reflection data), with the queue of pending types | how values are written is an inductive relation in the specification; acceptance by induction on it, the converse by induction on the fuel of the validator; invariant of the queue for closedness and reachability; witnesses by evaluation and, for the endless run, induction on the fuel |
| C88 | the schema declaration of a tree, the hint, and the edits of four actions, applied to the text as an editor does | the declaration is an inductive relation over entries; the edited text is in the grammar of documents again, and a declaration in front keeps the paths at the root consistent; renaming with the places of C72 and C84; witnesses by evaluation |
| C89 | the leaves of the tree of C26 with the number of objects and sequences around each, the leaf at the cursor, and the edit | induction over the parser: from any state, the leaves of what is parsed are the tokens consumed, each at the depth of the brackets that a stack machine over tokens has open; the parser closes a bracket exactly when that machine does; witnesses by evaluation |
| C90 | the tokenizer of C01 | for each scanner: with a line break at the end of what it is given, more text behind changes nothing but the rest (next_more), and a token that ends within the text is found without the text behind (next_within); then induction over the tokens; positions by next_further |
| C91 | the shared grammar with its order of paths (Verif/Impl/Spec.lean) and the models of all four parsers | by induction on the derivation, each parser reads each text as the value it writes, whatever follows (Verif/Impl/Read*.lean); the path state by invariants on the paths seen, one for each direction; the Rust side by C47 |
| C92 | lexers and parsers of the three implementations in one model with a parameter for their differences (Verif/Impl); loops and calls use up fuel | each function with a bound on the fuel by the size of what is left of the text, by induction on the fuel; more fuel never changes an answer (parse_mono) |
| C93 | the scanner with its memory (an array of 17 bytes, faults for accesses outside and for loops that do not end) and the lexer interface (Verif/Editor/Scanner) | simulation: two scanners that differ only behind the delimiter find the same and stay alike (scan_same); restoring what was saved gives such a scanner; invariant over histories |
| C94 | external tokens along the grammar rule with the valid sets of the generated table (readRule) | both scanners described by the first place where the closing occurs (cutRaw), by induction on the text |
| C95 | external tokens along the rule heredoc (readRule); the tokenizer's two or three tokens (TokenizerHeredoc) | both scanners described by the first line that closes (findDelim, scanHeredoc), by induction on the text; the opening by cases on hint and line break |
| C96 | external tokens at the start of a value and right after a tag (rows 2, 3, 4 of the generated table) | the two character classes compared; the text after the editor's tag never starts with a tag character, r in particular |
| C97 | the request without extensions, on the parsed schema; a specification of where a schema declares a path (GivesType) | the search finds the first key of that name in the block, by induction on the tree; C72 and C73 for places and paths |
| C98 | as for C97 | soundness and completeness of the two searches, for any list of documents |
| C99 | get_field_info_in_type with fuel; GivesType, Followable and NoLoops in HoverSpec | termination by the rank of names, the size of the type and the length of the path; the answer by induction on Declares |
| C100 | the run as a list of operations on a disk (a crash keeps a beginning of it); what a path names, what may be read and written, and the programs with embedded schemas are parameters | case analysis of the run; only the last step writes |
| C101 | as for C100 | the written bytes are the encoding of the result; prefixes of the operations; C29_tree_partial for the meaning |
| C102 | as for C100; where the schema comes from is specified in FilesSpec (SchemaText) | schemaFor_iff; C30_partial for conformance |
| C103 | the path as a text, with Path::join | suffixes of paths; no part of the rest is `..` |
| C104 | calls as state machines on a file with writers at their own offsets; schedules are lists of actions | invariant: the last server to empty the file has written a right beginning |
| C105 | literals as lists of parts with their text and their value | induction on the parts; lengths show that the other escapes are never right |
| C106 | the static item as symbol and bytes; the program as any bytes with the statics in it | C36 (extraction finds all) and C37 (finds nothing else), then the first schema with the identifier |
| C107 | the printed text as a function of the tree | the text of a value is a prefix that determines it (induction over trees); places of untagged values are those of their payloads (C72) |
| C108 | the printers of JavaScript, Python, Go and Swift as functions of the tree, with the regular expression that closes sequences | equal to the Rust printer by induction over trees |
| C109 | `toTyped` and `getDefaultValue` with fuel | lexicographic induction: depth of defaults, size of the value, number of names to follow, size of the type |
| C110 | schema documents, types and JavaScript objects with a prototype | what a document means for a type as an inductive relation, apart from the code; induction over its derivations |
| C111 | `toTypedAny` | induction over the inductive meaning of documents |
| C112 | lexer and parser of the Swift implementation with fuel (Verif/Swift); Unicode properties of characters are a parameter | each function with a bound on the fuel by the size of what is left of the text, by induction on the fuel; at the root a round that reads nothing tracks the path `@`, which fails the second time |
| C113 | the model of C112 with those of C91; the grammar of C91 restricted (Verif/Swift/Spec.lean) | by induction on the derivation of the document: for every continuation of the text, each function reads what the derivation says; the path table of the Swift parser against the order on paths |
| C114 | heredoc.ts and the patterns of index.ts (Verif/Editor/CodeMirror.lean) beside the tokenizer of C01 | by induction on the lines for the token, on the characters for the search of the closing line |
| C115 | the lexers and parsers of all five implementations | an error ahead stays ahead through every parser function unless it is reported (invariant over the mutual recursion); acceptance only at the end-of-file token; for Rust through the relational form of the event machine |
| C116 | `build_report` with all kinds of errors; of the crate `ariadne` only that ranges count characters | the places of errors cover texts of the source (C11); byte and character offsets are equal exactly if all characters before are one byte, by induction |
| C117 | `StyxTokensProvider.tokenize` with its state, line by line; the regular expressions as functions | a grammar of coloured documents; each construct paints its own text and leaves the stack as it was, by mutual induction over the grammar; raw strings and heredocs by induction over their lines |
| C118 | the two conversions of values, of positions and of the fields; the map of serde_json in both its orders | the values of the two relations by mutual structural induction; both directions of the equivalence |
| C119 | the conversion of the workspace edit into the map of changes; `Url::parse` and the open documents are parameters | induction over the lists of edits with the map as accumulator; positions by C51 |
| C120 | `Position::from_offset`, the host's conversion and the position the server sends | the column of bytes is the column of UTF-16 units and an excess, which is zero exactly for ASCII |
| C121 | the registry's text and its reading, the expansion of variables, the matcher of the glob crate with its default options, comparison of paths by components | the matcher's loops are characterised by suffixes of the path; uniqueness by the last two components |
| C122 | the search for the declaration, the place of the schema, its loading from a file or from a program, validation, and the diagnostics | both searches are shown to find the declaration of the specification, then both texts are equal to the specification's schema text |
| C123 | the runs of `@publish` interleaved at their requests, over a registry that refuses existing versions | invariant over histories: what can have been published since a run has asked for the latest version; the relation kept by one comparison is transitive |
| C124 | the accessors of the typed nodes over the concrete syntax trees of `Verif.Cst.Parser` | induction over how documents are written (`RootText`), through the relation of nodes to values of C29 |
| C125 | the lookups of the harness and the requests of both sides (`Verif.Lsp.Harness`) | mutual induction over trees for the tagged context; induction over the way to the cursor, with the places of C72, for path and context |
| C126 | the reading of marks and the check of diagnostics (`Verif.Lsp.Runner`) | induction over lines and marks for the reading; every byte of a line has one line and column, by induction over the lines, for the verdict |
| C127 | the mutable accessors (`Verif.Tree.Modify`) | induction over trees for the place; a step leads to a value in surroundings that do not depend on it, by induction over steps for pairs of paths |
| C128 | `get_subtree`, `get_document`, `get_source` (`Verif.Lsp.Host`), the path of a cursor (`Verif.Lsp.Hover`) | the answer is characterised by a relation of names; the path of the cursor (C73) is one when its steps are names of keys |
| C129 | the command and the files it writes, step by step (`Verif.Cli.Package`), a reader of the part of TOML that occurs (`Verif.Cli.PackageSpec`) | the operations of a list of writes; a prefix of them is a prefix of one write after complete ones |
| C130 | the address of a schema with the writes to the cache, the link, the block `meta` and the hint (`Verif.Lsp.SchemaLink`), the texts of the hint as relations (`Verif.Lsp.SchemaLinkSpec`) | the loading of C122, the places of C72 and the positions of C51 for the declaration; the file after the writes |
| C131 | the checks of all answers and the verdict of a case (`Verif.Lsp.RunnerChecks`), what a case asks for as relations (`Verif.Lsp.RunnerChecksSpec`) | each check is its relation; the verdict puts them together with C126 |
| C132 | the printer as a function from trees to texts (`Verif.Cli.DebugTree`), what it shows as a function from trees to trees (`Verif.Cli.DebugTreeSpec`) | each part of the text determines what is shown and where it ends, by induction over the trees; names of tags end at a blank or a newline by C133 |
| C133 | the parser and the builder as before | induction over the runs of the parser: a name that is not valid comes with an error event; an invariant of the stack of the builder |
| C134 | the reader of annotations, the places of spans and the matching (`Verif.Testing.Annotated`), how an annotated source is written (`Verif.Testing.AnnotatedSpec`) | the lines and annotations are read back by induction over the lines; the matching keeps that what is left, with what was matched, is a permutation of the actual errors |
| C135 | as for C134 | the lines are read back by induction over the lines |
| C136 | `styx-indent-line` on lines as columns and texts, and `indent-region` of Emacs (`Verif.Editor.Emacs`), depths as a relation on the texts (`Verif.Editor.EmacsSpec`) | an invariant of the lines that are done: they determine the depth of the next line |
| C137 | the lookup in the tree of a schema's text (`Verif.Lsp.SourceFields`), the fields an object writes and the types paths lead to as relations (`Verif.Lsp.SourceFieldsSpec`) | induction on the path and on the tree; the texts by the places of C72 |
| C138 | `styxFoldService` on syntax trees with names, places and children, and `resolveInner` of Lezer (`Verif.Editor.Fold`), what is opened on a line (`Verif.Editor.FoldSpec`) | the nodes entered are those around the end of the line, each inside of the one before; by induction on the tree |
| C139 | `build_report` and `write_report` of validation errors (`Verif.Cli.ValidationReport`); the values errors are about as in C84, what a label underlines as in C116 | the places of errors cover texts (C84, C72), then the exact condition of C116 |
| C140 | `compute_semantic_tokens` as in C40; where a comment is in the tree (`CommentIn`, `CommentsGoOn`) is a specification of its own | induction on where the comment is |
| C49 | `format_source`, CST parser | shape of error-free trees (induction over the parser), then structural induction over trees |
| C30–C34 | schema validator | refinement to an inductive conformance relation |
| C35 | `levenshtein`, `suggest_similar` | DP table = recursive edit distance = minimum over edit scripts |
| C50 | schema validator | the conformance relation does not see the order of tables; negation witnesses |
| C36–C38 | `styx-embed` extraction | induction over search positions; decompression and hash are parameters |
| C39–C41 | LSP position arithmetic and edits | induction over the text |
| C42, C54–C56 | serde serializer/deserializer over a universe of data types | structural induction over types and values; token counts for termination; negation witnesses |
| C57–C62 | `StyxParser` of facet-styx on the event lists of the parser | rule induction over the relation between events and trees; invariant over all reads for errors and panics; peeking, skipping, hints and saving for all states; negation witnesses |
| C63–C66 | JSON conversions of styx-wasm and of the command line, with formatter and parser; floats and debug text are parameters | structural induction over JSON values, then C24; induction over paths; negation witnesses |
| C67 | the two implementations of `FormatSerializer` in facet-styx on the writer, for any calls; a relation says which calls a value makes | mutual rule induction over that relation, then C47 and C57; negation witnesses |
| C68 | the functions of styx-ffi over a memory of documents and strings; a client that reads everything | mutual structural induction over values; negation witness for NUL |
| C69 | histories of calls whose arguments are results of earlier calls, and the rules of the header | invariant over histories (which handle belongs to which document, which string to which call) by induction |
| C43, C44, C46, C53 | `styx-cli` schema comparison, versions, declarations | refinement of hash-map code to a relation between documents; C53 needs comparison and validator together |
| C45 | `highlight_styx` with the spans of `semantic_tokens.rs` | spans of any tree are in order; induction over spans |
| C51, C52 | LSP and extension-host position arithmetic | against a small model of an editor's positions; negation witnesses |
| C48 | `StyxWriter` call machine | invariant over all histories; negation by a concrete history |
| C47 | grammars of texts (`Text/Grammar.lean`, with braces around the root `Text/BracedSpec.lean`), lexer and parser | rule induction over the texts of values and documents |

## Trusted base

* Lean 4.33.0's kernel; axioms at most `propext`, `Classical.choice`, `Quot.sound`.
* The transcription from Rust to Lean (by hand, cited line by line).
* The Unicode `White_Space` table and other standard-library behaviour named in the model comments.

## Modelled and not modelled

| code in /repo | model |
|---------------|-------|
| `styx-tokenizer/src/tokenizer.rs` | `Verif/Tokenizer/Model.lean`, complete |
| `styx-parse/src/lexer.rs` | `Verif/Parse/Lexer.lean`, complete; `Verif/Parse/Escapes.lean` for the escape functions |
| `styx-parse/src/parser/mod.rs` | `Verif/Parse/{Parser,PathState,Events}.lean`, complete: atoms, entries, root and nested objects, both modes |
| `styx-tree/src/{value,builder,lib}.rs` | `Verif/Tree/{Value,Builder}.lean`: tree, object operations, `Verif/Tree/Modify.lean`: the mutable accessors, path lookup, event consumer, `parse`; `Verif/Cli/Report.lean`: the reports of `diagnostic.rs`, not their drawing (crate ariadne) |
| `styx-format/src/scalar.rs` | `Verif/Format/Scalar.lean` |
| `styx-format/src/{writer,options}.rs` | `Verif/Format/Writer.lean`, complete (number formatting is a parameter: the text is given by the caller) |
| `styx-cst/src/parser.rs` | `Verif/Cst/Parser.lean`, complete; `rowan`'s green tree is an inductive type |
| `styx-cst/src/ast.rs` | `Verif/Cst/Ast.lean`: the views used by the formatter and the validation; `Verif/Cst/View.lean`: the other typed views (`raw_text` and the casts between node kinds are left out) |
| `styx-cst/src/validation.rs` | `Verif/Cst/Check.lean`, complete |
| `styx-format/src/cst_format.rs` | `Verif/Cst/Format.lean`, complete |
| `facet-styx/src/{schema_validate,schema_types,schema_error}.rs` | `Verif/Schema/{Model,Suggest}.lean`: the validator, complete; `Verif/Cli/ValidationReport.lean`: the reports, without the texts of labels and notes; not the rendering by `ariadne`, the human-readable messages of errors, nor the reading of a schema file into the types of `schema_types.rs`. `f64` (parsing and `<`), `str::to_lowercase` and the meaning of patterns are parameters. A `HashMap` is the list of its entries in iteration order |
| `styx-embed/src/lib.rs` | `Verif/Embed/Model.lean`: building, scanning and reading of blobs of both formats, the choice of a section of an ELF file; LZ4, BLAKE3 and goblin are parameters; not memory mapping |
| `styx-embed-macros/src/lib.rs` | `Verif/Embed/Macros.lean`: the reading of literals, the identifier, the symbol and the bytes of the static; not the text of the generated item, nor reading schema files (`embed_file!`, `embed_outdir_file!`) |
| `styx-lsp/src/server.rs` | `Verif/Lsp/Model.lean`: positions and the format request; `Verif/Lsp/Cursor.lean`: the path at the cursor; `Verif/Lsp/Symbols.lean`: the outline; `Verif/Lsp/Fill.lean`: the action that fills in required fields; `Verif/Lsp/Declare.lean`: the actions that add a schema declaration, opt out, rename and reorder; `Verif/Lsp/SourceFields.lean`: the lookup of fields in the text of a schema; `Verif/Lsp/Complete.lean`: completion without the items of extensions; `Verif/Lsp/Diagnose.lean` and `Verif/Lsp/Marks.lean`: the diagnostics, without messages and those of extensions; `Verif/Lsp/Store.lean`: the handlers of open, change, close and of allowing an extension, interleaved at their awaits (tower-lsp runs handlers concurrently, which is taken from its documentation); `Verif/Lsp/Locks.lean`: what all handlers do with the lock on the documents (tokio's `RwLock` is first come, first served, which is taken from its documentation); `Verif/Lsp/Hover.lean`: hover, go to definition and references, given the resolved schema and without extensions; not inlay hints and the loading of schemas |
| `styx-lsp/src/schema_validation.rs` | `Verif/Lsp/Context.lean`: the object and the tagged value around the cursor; `Verif/Lsp/Navigate.lean`: the schema at a path, its fields and the values proposed; `Verif/Lsp/Diagnose.lean`: the value at the path of an error; `Verif/Lsp/Declare.lean`: the schema declaration of a document; `Verif/Lsp/Load.lean`: the loading of schemas, over the same abstract system as the command line; `Verif/Lsp/SchemaLink.lean`: the address of a schema |
| `styx-lsp/src/cache.rs` | `Verif/Lsp/Cache.lean`: the path of a cached schema, and calls of `cache_embedded_schema` and `clear_cache` interleaved at their system calls; `Verif/Lsp/SchemaLink.lean`: the same call on a disk with other files; not the statistics, the hash is a parameter |
| `styx-lsp/src/extensions.rs` | `Verif/Lsp/Model.lean`: position conversions of the host; `Verif/Lsp/Extensions.lean`: allowing and launching extensions, interleaved at their awaits; `Verif/Lsp/Protocol.lean`: what is carried between extensions and the editor: diagnostics with their data, edits, hints; `Verif/Lsp/Host.lean`: the parts of documents extensions ask for; not vox itself |
| `styx-lsp/src/schema_hints.rs`, `schema-hints.styx` | `Verif/Lsp/Hints.lean`, on Unix; the registry is read through the document tree instead of the deserializer; the glob crate's matcher is modelled for the patterns that occur |
| `styx-lsp/src/config.rs` | `Verif/Lsp/Config.lean`: what is written and read; reading goes through the document tree instead of the deserializer, unknown entries are ignored, writing succeeds in one step |
| `styx-lsp/src/testing/harness.rs` | `Verif/Lsp/Harness.lean`: the document of a test and the requests about a cursor, and the requests of the server they stand for; not the processes, the range of hint requests and the code actions |
| `styx-lsp/src/testing/runner.rs` | `Verif/Lsp/Runner.lean`: the marks of a test and the check of diagnostics; `Verif/Lsp/RunnerChecks.lean`: the other checks and the verdict; not the reports and the reading of test files |
| `styx-lsp/src/semantic_tokens.rs` | `Verif/Lsp/Tokens.lean`, complete |
| `styx-cli/src/main.rs` | `Verif/Lsp/Tokens.lean` (`highlight_styx`), `Verif/Cli/Model.lean` (schema comparison, next version, schema declaration); a hash map is a list with an arbitrary order of iteration; `Verif/Cli/Files.lean`: file mode (`run_file_mode`), the files it writes, step by step, the schema it validates against and the exit code; `Verif/Cli/Publish.lean`: runs of `publish` over an abstract registry; `Verif/Cli/Package.lean`: runs of `package`, step by step; not argument handling, the other subcommands and processes |
| `serde_styx/src/{ser,de,lib}.rs` | `Verif/Serde/Model.lean`: both serializers and the deserializer, for a universe of types (`Ty`: unit, booleans, integers, characters, strings, bytes, options, sequences, string-keyed maps, structs, tuples, enums); not floats, `deserialize_any` and keys that are not strings. The code that `#[derive]` generates, the visitors of the standard types and `String::serialize` are modelled from serde's documentation |
| `facet-styx/src/parser.rs` | `Verif/Facet/Model.lean`, complete except `current_span`, `raw_capture_shape` and `input`; the consumer of the events (crate facet-format) is any sequence of calls; `f64` parsing is a parameter |
| `facet-styx/src/serializer.rs` | `Verif/FacetSer/Model.lean`: the methods of `StyxSerializer` and `CompactStyxSerializer`; the traversal of a Rust value (crate facet-format) is any sequence of calls, the text of numbers is given; not the reflection that finds tags, names and doc comments in metadata containers |
| `facet-styx/src/schema_gen.rs` | `Verif/Gen/TypeModel.lean`: `schema_file_from_type` on the reflection data of a family of types; not skipped fields, documentation comments, the `meta` block and writing the file |
| `styx-gen-go/src/{lib,types}.rs` | `Verif/Gen/Go.lean`: the table of Go types, the file of types, the statements of `Validate`; not documentation comments, messages, the generated `Parse` and `LoadFromFile`, nor writing files; the meaning of the statements in Go is in `Verif/Gen/GoSpec.lean` |
| `styx-ffi/src/lib.rs` | `Verif/Ffi/Model.lean`: all functions; a pointer into a document is the document's number with the way from its root, a freed number is never given out again; the texts of error messages (`format_error`) are a parameter; strings of the caller are their bytes up to the first zero |
| `styx-wasm/src/lib.rs` | `Verif/Json/Model.lean`: `parse`, `validate`, `to_json`, `from_json` on JSON values; not the JavaScript boundary, JSON text and messages. `f64` (parsing, printing, finiteness) is a parameter; the map of serde_json keeps the order of insertion |
| `styx-cli/src/main.rs` (JSON) | `Verif/Json/Model.lean`: `value_to_json`; the map of serde_json is sorted; the debug text of a key is a parameter |
| `styx-cli/src/main.rs` (debug tree) | `Verif/Cli/DebugTree.lean`: `print_tree`, `print_payload`, `print_tree_inline`, `is_complex_value`; the same parameter for `{:?}`; not the diagnostic of a syntax error |
| `styx-testhelpers/src/lib.rs` | `Verif/Testing/Annotated.lean`: the assertions and what they read; not the report of a failure (`build_report`, `line_col_to_offset`, `safe_range`) |
| `editors/emacs-styx/styx-mode.el` | `Verif/Editor/Emacs.lean`: `styx-indent-line`, for white space of spaces and tabs; `indent-region` of Emacs as it is documented; not the highlighting and the cursor |
| `styx-cli/src/main.rs` (S-expressions), `styx-js/src/sexp.ts`, `styx-py/styx/compliance.py`, `styx-go/cmd/styx-compliance/main.go`, `styx-swift/Sources/Styx/Sexp.swift` | `Verif/Cli/Sexp.lean`, `Verif/Impl/Sexp.lean`: `print_sexp` and the printers of JavaScript, Python, Go and Swift; which characters `{:?}` prints as they are and the texts of errors are parameters; not reading files |
| `styx-js/src/typed.ts` | `Verif/Impl/Typed.lean`: reading of schemas, `toTyped`, `getDefaultValue`, `toTypedAny`, `parseTyped`, `parseUntyped`; the result of `parseFloat` is its text, integers are exact, the order of number-like keys is not modelled |
| `implementations/styx-{py,js,go}` | `Verif/Impl/{Lexer,Parser}.lean`: lexers and parsers, one model with a parameter for their differences; not spans, messages, the serializers and the access functions; some forms of numbers in `\u` escapes are left out (see the comments at `pyInt`, `jsInt`, `goInt`). |
| `implementations/styx-swift` | `Verif/Swift/{Lexer,Parser}.lean`: lexer and parser; characters are Unicode scalars, of the clusters only CR LF is modelled, the Unicode properties of characters are a parameter; not spans, messages, access functions |
| `tree-sitter-styx/src/scanner.c` | `Verif/Editor/Scanner.lean`: all of it, with the table of valid external tokens of `src/parser.c` and the rules `raw_scalar`, `heredoc`, `tag`, `unit` of `grammar.js` as far as they consist of external tokens. Not modelled: the generated LR tables and the internal lexer; the tree-sitter runtime is represented by its documented contract |
| `editors/codemirror-styx/src/heredoc.ts`, `index.ts` | `Verif/Editor/CodeMirror.lean`: the external tokenizer for heredocs, `parseHeredocText` with its two regular expressions (`^` and `$` under the flag `m` as ECMAScript defines them), the choice of the nested language; `Verif/Editor/Fold.lean`: the fold service, on any syntax tree. Not modelled: the Lezer grammar, the folding that CodeMirror falls back to, completion |
| `styx-format/src/value_format.rs` | `Verif/Format/ValueFormat.lean`, complete |

Not modelled anywhere: the native stack (deeply nested input can overflow it, a model of the heap
and stack would be needed), allocation failure, tracing output, `u32` overflow of offsets.

`Verif/Parse/Relation.lean` is a big-step relational description of the parser model that is proved to
hold of every run of the functions; invariants are proved over it by rule induction.

## Properties that are false of the code

Each has a kernel-checked witness; the theorem with suffix `_partial` says what does hold.

* C06, C07, C09: see the notes in `MANIFEST.json` and the `_false` theorems of `Props/Scalars.lean`.
* C10: a malformed `\u{…}` with many non-ASCII characters makes `validate_escapes` slice inside a
  character (panic), also in the decoded content of a tagged key; so does a raw string with 256 hashes and empty content.
* C11: the offset of an invalid escape inside a quoted scalar is computed on the unescaped text for
  tagged keys, so the reported span can fall inside a character.
* C12: when a `{` follows root content (an entry or a doc comment) a second object is opened directly
  inside the implicit root object, which is then never closed.
* C14: dotted keys of a root object written with braces are expanded without duplicate tracking
  (`{a.b 1 / a.b 2}`); `@a` and `@a@` are compared as different keys although their key events are
  equal.  Attribute objects are not checked at all.
* C15, C16: the tracker remembers only the current path and, per open segment, the closed children, so
  at the top level nothing is remembered once another root key follows: `a 1 / b 2 / a 3` and
  `a 1 / b 2 / a.c 3` are accepted.  `a.b 1 / a 2` is accepted, too.
* C21: the builder ignores which frame an end event closes, and a tag frame disappears when its value
  arrives, so `[ObjectStart, SequenceEnd]` and `[TagStart, Scalar]` build a tree.
* C23: an index into an object finds the key spelled `[n]`.
* C24: the value formatter writes `(@a @b)` as `(@a@b)`, which is read as `(@a)`; `(a @)` as `(a@)`;
  `@t"x"` as `@t(x)`; the key `@t"x"` as `@tx`; the key `"a.b"` as `a.b`; the string `a>b` bare; strings of three
  lines as heredocs with one more line break; empty doc comments are lost; a heredoc before `)` does not parse;
  keys that are sequences or objects panic.
* C25: `write_doc_comment_and_key` and `…_raw` succeed outside a struct.
* C48: a doc comment inside an inline struct makes all enclosing structs multi-line by patching the text; the
  positions of braces are not moved when commas before them are replaced, so a line break is put inside a key.
* C29: a heredoc that is the only item of a sequence is joined with the closing parenthesis
  (`x (<<A / hi / A / )`), which then no longer ends the heredoc: the formatted document has no tree.
* C70: commas without an entry are dropped one per pass (`x {a 1,,,}` changes three times); an empty object with a
  line break inside, as an item of a sequence, and a comment after a doc comment are laid out differently by the
  second pass.
* C71: the same key written with a `\u` escape or as a raw string, the empty key and tags as keys are missed; a dotted
  path and a quoted key with dots (`a.b 1`, `"a.b" 2`) are taken for the same key, as are `"\u0061"` and `"\\u0061"`.
* C72: the objects a dotted key `a.b 1` makes note the place of the key, so they overlap their own keys and do not
  contain the value; a tagged value notes the place of its payload only, and the tag is outside it.
* C49: of several values of an entry the formatter keeps only the first (`a 1 2` becomes `a 1`), and attributes
  in place of a key (`x>1` on its own) are dropped; both without an error.
* C30: patterns of strings are never checked; fields of flattened types are reported as unknown and the flattening
  field as missing; `@x` is rejected for a variant with an optional payload; for an untagged value of an enum only the
  first scalar variant in iteration order is tried; a deprecated optional field is required; the key `@` is taken for a
  field named by the empty text (also C32).
* C34: only directly.  Marking an optional field, or a unit variant of an enum, as deprecated makes it required or
  unusable; unions and one-of drop the warning.
* C50: the outcome depends on the iteration order of the schema's hash maps, for enums with several scalar variants of
  which one has constraints, and for objects with several catch-alls.
* C38: `start + size <= data.len()` in `find_elf_section` overflows for crafted section headers; the slice that
  follows (or the addition itself, with overflow checks) panics.
* C41: the edit of the format request ends at the end of the last line, so the newline that ends the document stays and
  follows the formatted text, which has its own.
* C43: the version numbers are incremented without a check for overflow.
* C51: columns are counted in characters and token lengths in bytes, while the protocol's default is UTF-16
  units; a lone carriage return is not counted as a line end.
* C52: the extension host counts bytes in one direction and characters in the other; the position of the end
  of a document after a newline is not found.
* C53: the comparison of schemas looks at the names of fields and not at their types.
* C42: the deserializer does not read heredocs, which the serializer writes for strings of three lines; the string
  `a>b` is written bare; `Some(None)` is read as `None`; there is no method for 128-bit integers.
* C55: variants of enums are written `@name`, which is one token since the tokenizer has tags, while the deserializer
  expects two; the closing parenthesis of a tuple is not read, so the next element of a sequence or the next field of
  a struct is read in the wrong place.
* C56: an unknown field that is `@` takes the next key for the name of a tag and skips the value after it.
* C57: an object after entries at the root (`a 1\n{b 2}`, see C12) gives events with an unclosed struct and no error.
* C61: a hint stays pending until the next scalar is read, so a hint given for a sequence or a unit is applied to a
  later scalar; a hint given after a peek misses the peeked scalar.
* C62: there is one slot for a saved state; a save inside a save loses the outer one.
* C63: `a 1\n{b 2}` (see C12) is valid for `validate` and `parse`; `to_json` reports an unclosed structure.
* C64: strings that look like numbers, booleans or null come back as those; null in an array is joined to the item
  before it; names with dots become paths, strings with `>` attributes; tagged scalars come back in an array; a root
  with `$tag` or one that is no object is not kept.
* C65, C66: `@` and `"@"` (and `@t` and `"@t"`, `@t"a"` and `@t"b"`) are different keys for the parser and get the
  same name in JSON; only the later entry is kept.
* C67: `@error"boom"` (a tag whose name ends in `r`, with a string) is read as `@erro` with a raw string; numbers after
  a tag become part of its name (`@size5`); a struct after a tag in a sequence becomes an item of its own; strings with
  `>` become attributes; strings of three lines gain a line break, or cannot be read in a sequence; names with dots
  become paths; names of tagged keys are not escaped; roots that are no structs are not kept.
* C68: an escape can put NUL into a text (`"\u0000"`); C strings cannot hold it, and `styx_value_scalar` and
  `styx_value_tag` return null although the value has a text; `styx_parse` itself aborts where the parser panics (C10).
* C73: with the cursor on the value of `a.b 1` no path is found, and none with the cursor on the tag of a value.
* C74: objects in sequences and objects of dotted keys are not seen as the context of the cursor; looking for a
  tagged value visits the entries of every object twice, so documents of `4n + 6` characters take `2 ^ n` calls.
* C75: two changes whose handlers overlap can leave the older text stored while the diagnostics of the newer one are
  shown; a document closed while its open handler runs stays stored; the first of several content changes is kept;
  allowing an extension publishes the diagnostics again without the error of the tree parser.
* C76: goto definition, hover, completion, code actions and allowing an extension hold the documents for reading
  while they wait for the extension; when the extension calls the host back and a change waits in between, no request is
  ever answered again.
* C77: allowing a command allows every command that begins with it; documents of one schema opened at the same time
  launch its extension several times; an extension that does not answer is launched again with every change and never
  killed.
* C78: a permission is lost when two servers run; an edit of the configuration file is overwritten by a running server; a file
  with a mistake is replaced, its commands are lost; allowing a command with `>` in it takes all permissions; comments in
  the file are lost.
* C79: in the outline of a dotted key such as `a.b 1`, the child stands outside the range of its parent.
* C80: filling in the fields of an object below the root puts them behind its closing brace, so they become fields of the object around it; with a root in braces, a dotted key under the cursor, a string whose last line begins with `//`, or a field name that needs quotes, the document is broken or the field is not added.
* C81: the server never answers (stack overflow) for a type that is another name of itself, panics for a map without types, takes the tag of an object for a name on the path, does not know the fields of flattened types, and disagrees with the validator on which fields with defaults or deprecations are required.
* C82: `[]`, the value proposed for every sequence, is read as a word and rejected; `@T`, proposed for a named object type, is rejected; `0` and `""` are proposed whatever the bounds, `{}` whatever fields are required, a literal with a space as two words.
* C83: accepting a completion after `1,na` also removes the value `1` of another entry, after `(` the parenthesis; a no-break space before the word panics (all documents); a required field whose type name begins with `optional` is ranked as optional and may not be offered.
* C84: errors in the payload of a tagged value have no place: `x @a{a 1}` with a number expected after `@a` is marked at the `1`; a field missing in a payload is marked at the first character of the document.
* C85: the concrete syntax tree parser reports errors in documents that are accepted: `x (a>1)` and `x @///c`; the server drops the error of the tree parser when it publishes again after an extension was allowed.
* C86: the Go generator uses types it does not declare (named scalars, names not in Pascal case), merges objects with equal Go names, gives two fields one name, makes the values of `@map(@V)` its keys, wraps bounds outside 64 bits, reports deprecated optional fields as missing, and never validates nested structs.
* C87: the schema of a struct with a flattened struct rejects the struct's documents; types with equal names lose a definition; opaque types and `Schema` are referred to and not defined; large `u128`, unit keys and omitted optional payloads are rejected; integer ranges are not checked; a type that is itself behind an `Option` makes the validator run without end.
* C88: the actions of the hint make a document that is rejected if its root has braces or it has another `@schema`; the declaration added for a hint without a binary is not recognised; a key is renamed to a name in use or one that needs quotes; reordering is never offered.
* C89: after Enter before a closing bracket its line is indented too far; existing indentation is doubled; in a multi-line string or heredoc the value is changed; `{a>}` counts as still open.
* C92: on a document that begins with a closing brace the parsers of the Python, JavaScript and Go implementations do not end (`C92_false`).
* C91: the implementations do not agree on every document (`C91_false` and the other `C91_false_…` theorems), and on no
  document with braces around the root (`C91_braced_false`).
* C94: with more than 255 hashes the tokenizer reads a raw string and the editor none (`C94_false`).
* C95: the tokenizer opens a heredoc whatever follows the delimiter, the editor only before a comma or a line break (`C95_opening_false`); a carriage return alone ends a line for the editor but not for the tokenizer (`C95_return_false`).
* C96: the editor's tag runs on over a dot (`C96_dot_false`) and over the r of an attached raw string (`C96_raw_false`), so such a payload is never recognised (`C96_no_raw_payload`), and it stops at a chain (`C96_chain_false`).
* C97: the search goes by the name alone and finds the first declaration with it (`C97_false`); fields declared inside parentheses are not found (`C97_missing_false`).
* C98: only the top level of documents is searched, so a nested use is not listed, not even the one at the cursor (`C98_false`).
* C99: a recursive enumeration makes the server recurse until the stack ends (`C99_answers_false`); the keys of a map inside `@optional` are looked up among the fields of its values (`C99_map_false`); an item shows nothing (`C99_item_false`).
* C100: `--json-out` naming the input overwrites it without `--in-place` (`C100_json_false`); an output that is a hard link to the input is not recognised (`C100_link_false`).
* C101: an interrupted `--in-place` leaves an empty or cut file (`C101_crash_false`); `--in-place` is ignored with `--json-out`, and `-o` with `--in-place` (`C101_ignored_false`); `--compact` changes nothing (`C101_compact_false`).
* C102: the code 1 is also that of a correct document whose schema is given by an address (`C102_false`).
* C103: a document that declares its program by an absolute path, or an identifier with `..`, makes the language server write outside the cache directory (`C103_absolute_false`, `C103_up_false`).
* C104: the path is returned as soon as the file exists, even if it is still empty (`C104_early_false`); a crash while writing leaves a cut schema that is taken for ever (`C104_crash_false`).
* C105: `embed_inline!` does not undo `\x`, `\u`, `\'` and line continuations in a quoted literal: the embedded schema differs from the one written (`C105_false`).
* C108: control characters in texts are printed differently by each implementation (`C108_false`); none of Rust and Python follows the format that compliance/format.md describes for them.
* C109: a schema type that is its own alias, or that has a field whose default is of this type, makes `parseTyped` recurse until the stack is full (`C109_false`, `C109_false_default`).
* C110: `parseTyped` does not check documents: texts become NaN, required fields may be missing, unions are read as text, and a key `__proto__` replaces the prototype of the result (`C110_false_number`, `C110_false_missing`, `C110_false_union`, `C110_false_proto`).
* C111: `parseUntyped` drops tags, values of the key `@` and of empty keys, and texts for `__proto__` (`C111_false`).
* C112: in a sequence a `}` or `>`, and in an object a `)` or `>`, keeps the Swift parser running for ever, collecting unit values (`C112_false`).
* C113: the Swift implementation loses the items behind attributes in a sequence, gives a key without value in an object the next key as its value, reads commas as entries, accepts a key twice in an object, and rejects CRLF, one-letter heredoc delimiters, commas at the root and escapes with seven digits (`C113_false…`).
* C114: CodeMirror has no heredoc token where the opening is followed by other text, closes heredocs at a carriage return alone, accepts delimiters of 17 characters, and gives the nested language a part of the content if it contains U+2028 (`C114_…_false`).
* C115: the Go parser drops everything behind a malformed token at the root without an error, e.g. `a 1\n"b\nc 2` gives one entry (`C115_go_false`); the Rust parser accepts escapes that its lexer rejects (`C115_rust_false`).
* C116: the reports on the terminal underline a wrong text, or none, behind characters of several bytes: on `é (1,2)` the `2` instead of the comma (`C116_false`).
* C117: the Monaco editor paints the value of an attribute as a key, raw strings without hashes as a value and a key, and takes a line of a heredoc with a blank behind the delimiter for its end (`C117_attribute_false`, `C117_raw_false`, `C117_payload_false`, `C117_lines_false`, `C117_heredoc_false`).
* C118: data that an extension attaches to a diagnostic loses its tags and the entries whose keys are not texts (`C118_false`).
* C119: an action of an extension loses edits: of two lists for one document the first, and all for a document that is not open; edits for a name that is not a URL go to the wrong document (`C119_false`).
* C120: hints of extensions behind a character that is not ASCII are shown at another place (`C120_false`).
* C121: of the hints that match a file one is taken by the random order of a hash map (`C121_false`).
* C122: the editor and the command line treat an opt-out, a missing schema, a declaration without identifier and a second declaration differently (`C122_optOut_false`, `C122_missing_false`, `C122_identifier_false`, `C122_twice_false`).
* C123: a field that is added as optional and later made required is never compared with the version before it (`C123_required_false`); a failed request for the latest version is taken for a first publication (`C123_unreachable_false`).
* C124: raw strings keep their quotes (`C124_raw_false`), unicode escapes stay (`C124_unicode_false`), heredocs keep their indentation (`C124_heredoc_false`), attributes are a missing value (`C124_attributes_false`), keys that are not scalars and braces around the root have an empty key text (`C124_keys_false`), doc comments come in reverse and are cut (`C124_docs_false`).
* C125: a test and the editor differ in the column behind non-ASCII characters (`C125_character_false`), in the path at the end of a value and on a key (`C125_path_false`, `C125_key_path_false`), in the path of completions (`C125_completion_path_false`), in the place noted in the context (`C125_context_false`), in the context inside sequences (`C125_sequence_context_false`) and in the word behind a parenthesis (`C125_prefix_false`).
* C126: a test never compares the severity it asks for (`C126_severity_false`) nor the line of the end (`C126_end_line_false`), takes places outside the document for its end (`C126_outside_false`), counts columns with the bar of the cursor (`C126_bar_false`), panics on line 0 (`C126_line_zero_false`) and on places inside a character (`C126_boundary_false`), drops marks above the first line (`C126_first_mark_false`) and takes lines that look like marks out of the document (`C126_caret_line_false`).
* C128: the path of a cursor leaves out keys without text (`a x, @ {a 1}`: the path of `1` is that of `x`), is the same for an attribute that comes twice, and has numbers for items of sequences, which `get_subtree` does not follow (`C128_unnamed_false`, `C128_twice_false`, `C128_sequence_false`).
* C129: an interrupted `package` leaves a crate with an empty schema in a new directory (`C129_torn_false`) and a crate with the new version and the older schema in an old one (`C129_stale_false`); a quote in the name makes a manifest that cannot be read, and the command succeeds (`C129_quote_false`).
* C130: the link and the hint of a document whose first declaration is malformed lie on this one and belong to the second (`C130_false_place`); a file in the cache with other contents is linked as the schema (`C130_false_cache`); the hint for a description that begins with an empty line is a dash (`C130_false_blank`).
* C131: only the first completion with a label is compared (`C131_false_label`), the kind never (`C131_false_kind`); the line of a definition behind the cursor is looked up one byte too early, which takes it for the line before (`C131_false_line`) or panics (`C131_false_panic`), and a wanted line 0 panics (`C131_false_zero`).
* C132: the debug tree shows `a 1` and `a "1"` as the same (`C132_false_kind`), and `@a"x" 1` and `@a"y" 1` (`C132_false_key`).
* C134: an error in an empty last line cannot be annotated: `assert_annotated_errors` panics (`C134_false`).
* C136: Emacs indents a closing bracket below an empty line like what it closes (`C136_false`).
* C137: Without a schema that can be read, the completion shows `@optional(T)` as `(T)`, and so sorts the field with the required ones (`C137_false_text`); it offers no fields inside of `@default(value @object{…})` (`C137_false_default`).
* C138: At a line that ends with the closing bracket of an object opened on it, CodeMirror folds that object, on one line, and not the one around it (`C138_false`).
* C139: Behind a character of several bytes the reports of validation underline the wrong text (`C139_false`); a field missing behind a tag is reported at the first character of the document (`C139_false_place`).
* C140: A comment directly in a sequence gets no semantic token (`C140_false`).
