{"id": "C01", "title": "Version comparison is the semver total preorder", "statement": "Comparing two package versions yields a total order on everything except build metadata: it is reflexive, antisymmetric up to build metadata, transitive and total; it compares major, minor, patch numerically, ranks a pre-release below its release, and ranks pre-releases identifier by identifier (numeric below alphanumeric, a proper prefix below the longer list).", "quantifier": "all pairs and triples of versions, with pre-release lists of any length", "why_tests_cant": "transitivity and totality are statements about all triples of versions with unbounded pre-release lists", "anchors": ["hexpm/src/version.rs: Version::cmp, PreOrder::partial_cmp, Identifier"]}
{"id": "C02", "title": "Printed versions parse back to themselves", "statement": "If a string parses as a version, printing that version and parsing the result yields the same version (same numbers, same pre-release identifiers, same build metadata).", "quantifier": "all input strings accepted by the version parser", "why_tests_cant": "ranges over every string the hand-written lexer and parser accept, including hyphen concatenation and `or`/`and` lookahead", "anchors": ["hexpm/src/version.rs: Version::parse, Display for Version", "hexpm/src/version/lexer.rs: Lexer::next, component, and", "hexpm/src/version/parser.rs: Parser::version, identifier, pre, plus_build_metadata"]}
{"id": "C03", "title": "Every well-formed semver version can be parsed", "statement": "Every version made of three u32 numbers, and any semver-legal pre-release identifiers, when printed in the documented format is accepted by the parser and read back unchanged.", "quantifier": "all versions", "why_tests_cant": "ranges over all identifier texts; the failing ones (identifiers starting with `or` or `and`, numeric identifiers beyond u32) are a thin slice no sample finds", "anchors": ["hexpm/src/version/lexer.rs: Lexer::next (lines 216-235)", "hexpm/src/version/parser.rs: identifier"]}
{"id": "C04", "title": "A version requirement accepts exactly the versions it describes", "statement": "For a parsed requirement `a and b or c ...` a version satisfies the resulting range iff for some `or` alternative it satisfies every comparator: `== v`, `!= v`, `> v`, `>= v`, `< v`, `<= v`, `~> x.y`, `~> x.y.z` with their documented meaning.", "quantifier": "all requirement syntax trees and all versions", "why_tests_cant": "unbounded conjunction/disjunction trees and all versions, including pre-releases between two releases", "anchors": ["hexpm/src/version/parser.rs: range, range_ands_section, pessimistic_version_constraint", "hexpm/src/version.rs: bump_major, bump_minor, bump_patch"]}
{"id": "C05", "title": "The lowest version of a range is a member and a lower bound", "statement": "The `lowest_version` reported for a range is a version admitted by the range's closure and no version in the range is lower than it.", "quantifier": "all ranges built from requirement syntax", "why_tests_cant": "all unions of intervals", "anchors": ["hexpm/src/version.rs: LowestVersion::lowest_version"]}
{"id": "C06", "title": "Encoded Erlang terms decode to the term that was encoded", "statement": "Encoding any well-formed Erlang term (atoms, integers, floats, binaries, tuples, lists, maps as emitted) and decoding the bytes by the External Term Format specification yields the same term and consumes exactly the bytes written.", "quantifier": "all terms of any nesting and size", "why_tests_cant": "unbounded nesting and sizes; integer sizes around 8/32-bit and 255-byte limits", "anchors": ["erlang-term-format/src/lib.rs: Builder, TermBuilder methods"]}
{"id": "C07", "title": "Byte offsets map to the right line and column", "statement": "For every source text and byte index the reported line is one plus the number of newline characters strictly before the index, and the column is the distance (in bytes, resp. UTF-16 units plus one) from the start of that line.", "quantifier": "all source texts and all byte indices", "why_tests_cant": "all texts with arbitrary multi-byte characters and all offsets", "anchors": ["src-span/src/lib.rs: LineNumbers::new, line_number, line_and_utf8_column_number, line_and_utf16_column_number"]}
{"id": "C08", "title": "Editor positions and byte offsets round-trip", "statement": "For every character boundary in a source file, converting its byte index to an editor (UTF-16) position and back gives the same byte index.", "quantifier": "all source texts and all character boundaries", "why_tests_cant": "all texts mixing 1-4 byte characters", "anchors": ["src-span/src/lib.rs: LineNumbers::byte_index, line_and_utf16_column_number"]}
{"id": "C09", "title": "Labelled call arguments land in their declared positions", "statement": "When reordering a call's arguments by label succeeds, the result is a permutation of the given arguments; every labelled argument sits at the index declared for its label, and unlabelled arguments keep their relative order.", "quantifier": "all field maps and all argument lists", "why_tests_cant": "all permutations of labels and positions", "anchors": ["compiler-core/src/type_/fields.rs: FieldMap::reorder"]}
{"id": "C10", "title": "Label errors are reported exactly when the call is wrong", "statement": "Reordering fails iff the arity is wrong, a positional argument follows a labelled one, a label is unknown, or a label is given twice; the missing-label list is exactly the declared labels not supplied.", "quantifier": "all field maps and argument lists", "why_tests_cant": "all calls", "anchors": ["compiler-core/src/type_/fields.rs: FieldMap::reorder, missing_labels, FieldMapBuilder::add"]}
{"id": "C11", "title": "String size computations agree with the encoders", "statement": "For every string literal, the UTF-16/UTF-32 byte sequences produced for bit array segments decode to the same characters in either endianness, and the computed lengths equal the number of bytes produced.", "quantifier": "all strings of Unicode scalar values, both endiannesses", "why_tests_cant": "all scalar values and surrogate pair arithmetic", "anchors": ["compiler-core/src/strings.rs: string_to_utf16_bytes, string_to_utf32_bytes, length_utf16, length_utf32"]}
{"id": "C12", "title": "Suggested names are valid names", "statement": "The snake_case and UpperCamelCase conversions used for suggested names produce identifiers the language accepts whenever the input is an identifier, and are idempotent.", "quantifier": "all strings", "why_tests_cant": "all strings", "anchors": ["compiler-core/src/strings.rs: to_snake_case, to_upper_camel_case", "compiler-core/src/analyse/name.rs: correct_name_case, VALID_NAME_PATTERN"]}
{"id": "C13", "title": "Operator expressions parse with the right grouping", "statement": "Parsing `e0 op1 e1 op2 e2 ...` yields a tree whose in-order reading is exactly the input, in which every operator's left subtree contains only operators of greater-or-equal precedence and its right subtree only operators of strictly greater precedence at its top (higher binds tighter, left associative), and this tree is unique.", "quantifier": "all operator/operand sequences of any length", "why_tests_cant": "unbounded operator sequences", "anchors": ["compiler-core/src/parse.rs: handle_operator, precedence, do_reduce_expression, do_reduce_clause_guard, do_reduce_constant", "compiler-core/src/ast.rs: BinOp::precedence", "compiler-core/src/parse/token.rs: guard_precedence"]}
{"id": "C14", "title": "Formatting never changes the text, only the layout", "statement": "For every document and every line-width limit the pretty printer's output, with the layout (newlines, indentation, break text) removed, is the same sequence of text fragments; the width limit only affects which breaks become newlines.", "quantifier": "all documents, all limits", "why_tests_cant": "unbounded documents and all widths", "anchors": ["pretty-arena/src/lib.rs: format, Document"]}
{"id": "C15", "title": "A group that fits is printed on one line", "statement": "When the pretty printer decides that a group fits, printing it unbroken does not cross the line-width limit; and it breaks a group only when printing it unbroken up to the next possible newline would exceed the limit.", "quantifier": "all documents, limits and current columns", "why_tests_cant": "all documents and columns", "anchors": ["pretty-arena/src/lib.rs: fits, format"]}
{"id": "C16", "title": "Pretty printing is compositional", "statement": "Printing the concatenation of documents equals printing them one after another from where the previous left off; empty documents are neutral; nesting and grouping text without breaks changes nothing.", "quantifier": "all documents", "why_tests_cant": "all documents", "anchors": ["pretty-arena/src/lib.rs: append, concat, join, group, nest, format"]}
{"id": "C17", "title": "Precomputed fragment widths are the real widths", "statement": "Every constant text fragment's precomputed width equals the number of columns its text occupies.", "quantifier": "the whole table of constants", "why_tests_cant": "a typo in one entry silently skews every layout decision that involves it", "anchors": ["pretty-arena/src/lib.rs: const_str! table (lines 604-939)"]}
{"id": "C18", "title": "The in-memory file system behaves like a file system", "statement": "After any sequence of operations: reading a file returns the last bytes written to it, deleting removes it (and for directories everything below it), every existing path's parent is an existing directory, and a failing operation changes nothing.", "quantifier": "all operation histories", "why_tests_cant": "arbitrary histories of operations", "anchors": ["compiler-core/src/io/memory.rs: InMemoryFileSystem"]}
{"id": "C19", "title": "Unsaved editor buffers shadow files exactly while open", "statement": "Through the language server's file system, after any history of open/change/close and disk writes, reading a path returns the latest editor text if the path is open, and otherwise the file on disk.", "quantifier": "all histories of editor and disk operations", "why_tests_cant": "arbitrary histories", "anchors": ["language-server/src/files.rs: FileSystemProxy"]}
{"id": "C20", "title": "Modules are ordered dependencies-first, or a real cycle is reported", "statement": "Ordering modules by imports either returns every module exactly once with every import before its importer, or reports a non-empty list of modules each of which imports the one before it in the reported cycle, the first importing the last. It orders whenever no cycle exists.", "quantifier": "all import graphs", "why_tests_cant": "all finite graphs", "anchors": ["compiler-core/src/dep_tree.rs: toposort_deps, import_cycle"]}
{"id": "C21", "title": "Functions are analysed after everything they reference", "statement": "Within a module, definitions are grouped so that each group is a set of mutually recursive definitions and every reference from a definition to another module-level definition goes to the same or an earlier group.", "quantifier": "all modules' functions and constants, with arbitrary scoping", "why_tests_cant": "arbitrary nesting of scopes and shadowing", "anchors": ["compiler-core/src/call_graph.rs: CallGraphBuilder, into_dependency_order"]}
{"id": "C22", "title": "Unlocking stale packages keeps exactly the still-locked tree", "statement": "After a requirement changes, the packages kept locked are exactly those reachable in the old lockfile from requirements that did not change, and every changed or removed requirement is unlocked.", "quantifier": "all manifests and requirement changes", "why_tests_cant": "arbitrary dependency graphs, including cyclic ones", "anchors": ["compiler-core/src/config/stale_package_remover.rs: StalePackageRemover"]}
{"id": "C23", "title": "Unification succeeds only by making the two types equal", "statement": "When two types unify, after the recorded substitutions both denote the same type; earlier substitutions are preserved (only unbound variables are assigned).", "quantifier": "all types and all variable states without cycles", "why_tests_cant": "all type trees and states", "anchors": ["compiler-core/src/type_/environment.rs: unify", "compiler-core/src/type_.rs: collapse_links, same_as"]}
{"id": "C24", "title": "No infinite types", "statement": "Starting from acyclic variable state, no sequence of unifications ever makes a type variable refer (transitively) to a type containing itself.", "quantifier": "all sequences of unifications", "why_tests_cant": "all histories", "anchors": ["compiler-core/src/type_.rs: unify_unbound_type", "compiler-core/src/type_/environment.rs: unify"]}
{"id": "C25", "title": "Unification is complete and most general", "statement": "If some assignment of the unbound variables makes two types equal, unification succeeds, and its result is at least as general as that assignment.", "quantifier": "all types without rigid (generic) variables, all states", "why_tests_cant": "all types", "anchors": ["compiler-core/src/type_/environment.rs: unify"]}
{"id": "C26", "title": "Token positions tile the source", "statement": "The tokens produced from any source text have spans that are in order, do not overlap, lie within the text and on character boundaries; the text under a name/number/operator token's span is that token's text.", "quantifier": "all source texts", "why_tests_cant": "all texts incl. multi-byte characters and end-of-file positions", "anchors": ["compiler-core/src/parse/lexer.rs: Lexer, NewlineHandler"]}
{"id": "C27", "title": "Reading the tokens of a text ends", "statement": "For every source text, asking for the next token again and again gives at most one token for each character and then an error or the end of the text; no panic happens, and once the end is reported it is reported for ever.", "quantifier": "all source texts", "why_tests_cant": "termination and absence of panics on all inputs", "anchors": ["compiler-core/src/parse/lexer.rs: Iterator for Lexer, inner_next, consume_normal"]}
{"id": "C28", "title": "An accepted case expression never falls through", "statement": "If exhaustiveness checking reports no missing patterns for a case expression, then for every well-typed subject value (and any guard outcomes) some clause matches.", "quantifier": "all pattern matrices over custom types, tuples, lists, literals, string prefixes; all values", "why_tests_cant": "infinite value space and unbounded patterns", "anchors": ["compiler-core/src/exhaustiveness.rs: Compiler::compile, CaseToCompile", "compiler-core/src/exhaustiveness/missing_patterns.rs"]}
{"id": "C29", "title": "Reported missing patterns are really missing", "statement": "If exhaustiveness checking reports a missing pattern, there is a well-typed value of that shape that no unguarded clause matches.", "quantifier": "all pattern matrices", "why_tests_cant": "infinite value space", "anchors": ["compiler-core/src/exhaustiveness/missing_patterns.rs", "compiler-core/src/exhaustiveness.rs"]}
{"id": "C30", "title": "A case expression runs the first matching clause", "statement": "Executing the compiled decision tree on any value runs the first clause, in source order, whose patterns match and whose guard holds, with the bindings of that clause's patterns.", "quantifier": "all case expressions, all values, all guard outcomes", "why_tests_cant": "all pattern matrices and values", "anchors": ["compiler-core/src/exhaustiveness.rs: Compiler::compile, BranchSplitter, split_branches", "compiler-core/src/javascript/decision.rs"]}
{"id": "C31", "title": "A clause reported unreachable never runs", "statement": "If a clause is reported as unreachable then no value makes it the first matching clause; and a clause not so reported is selected for some value.", "quantifier": "all case expressions and values", "why_tests_cant": "all values", "anchors": ["compiler-core/src/exhaustiveness.rs: Decision/Match::is_reachable, diagnostics"]}
{"id": "C32", "title": "Generated JavaScript branches agree with the decision tree", "statement": "The if/else chain generated for JavaScript (with merged conditions) selects the same clause as the decision tree for every value.", "quantifier": "all decision trees and values", "why_tests_cant": "all trees", "anchors": ["compiler-core/src/javascript/decision.rs: switch, decision_guard"]}
{"id": "C33", "title": "An incremental build equals a clean build", "statement": "After any history of source edits, additions, removals and builds (successful or failing), a successful build leaves the same module interfaces and generated code as building the current sources from scratch.", "quantifier": "all histories of edits and builds", "why_tests_cant": "arbitrary histories of edits, failures and rebuilds", "anchors": ["compiler-core/src/build/package_loader.rs: PackageLoader::run, StaleTracker", "compiler-core/src/build/module_loader.rs: ModuleLoader::load", "compiler-core/src/build/package_compiler.rs: compile, encode_and_write_metadata", "compiler-core/src/build/project_compiler.rs"]}
{"id": "C34", "title": "An interrupted build never poisons later builds", "statement": "If a build is interrupted (crash or error) at any point, the next successful build still equals a clean build.", "quantifier": "all crash points in all histories", "why_tests_cant": "all crash points", "anchors": ["compiler-core/src/build/package_compiler.rs: encode_and_write_metadata, perform_codegen", "compiler-core/src/build/package_loader.rs: load_stale_module"]}
{"id": "C35", "title": "Production builds keep exactly the production dependencies", "statement": "A production build compiles exactly the packages reachable from the root's non-dev dependencies.", "quantifier": "all dependency graphs incl. cyclic", "why_tests_cant": "all graphs", "anchors": ["compiler-core/src/build/project_compiler.rs: retain_only_production_packages"]}
{"id": "C36", "title": "Concurrent compiler processes never deadlock on build locks and never build the same target together", "statement": "Under every interleaving of any number of processes taking single-target or all-target build locks, no two hold the lock of the same mode and target at once and some process can always make progress.", "quantifier": "all schedules of any number of processes", "why_tests_cant": "all interleavings", "anchors": ["compiler-cli/src/build_lock.rs: BuildLock, lock_all_build"]}
{"id": "C37", "title": "Comments are attributed to the right place", "statement": "The first/last comment between two positions is the first/last comment in source order overlapping the range, whenever comments are in source order.", "quantifier": "all comment lists and ranges", "why_tests_cant": "binary-search based, all lists", "anchors": ["compiler-core/src/parse/extra.rs: first_comment_between, has_comment_between, is_within_comment"]}
{"id": "C38", "title": "Integer arithmetic means the same on both targets", "statement": "The code generated for an integer expression or an integer guard evaluates its operands once each from left to right and gives the result the language defines (truncating division, remainder with the sign of the dividend, zero when dividing by zero), on Erlang for all integers and on JavaScript for all safe integers.", "quantifier": "all integer expressions and guards, all integers, all behaviours of called functions", "why_tests_cant": "all integers, all nestings of operators and calls, and floating point rounding", "anchors": ["compiler-core/templates/prelude.mjs: divideInt, remainderInt", "compiler-core/src/erlang.rs: how_to_divide, int_division, needs_begin_end_wrapping, clause_guard", "compiler-core/src/javascript/expression.rs: div_int, remainder_int, guard_expression", "compiler-core/src/ast/typed.rs: is_pure_value_constructor"]}
{"id": "C39", "title": "JavaScript equality is structural equality", "statement": "The runtime equality used for == on JavaScript is an equivalence on Gleam values and holds iff the two values are structurally equal.", "quantifier": "all Gleam values of any depth", "why_tests_cant": "unbounded nesting", "anchors": ["compiler-core/templates/prelude.mjs: isEqual, structurallyCompatibleObjects"]}
{"id": "C40", "title": "Generated JavaScript names are legal and distinct", "statement": "Escaping Gleam names for JavaScript never yields a reserved word and never maps two different names of one scope to the same JavaScript name.", "quantifier": "all names and shadowing counters", "why_tests_cant": "all identifiers", "anchors": ["compiler-core/src/javascript.rs: maybe_escape_identifier, is_usable_js_identifier", "compiler-core/src/javascript/expression.rs: next_local_var"]}
{"id": "C41", "title": "Checksums round-trip through the lockfile", "statement": "A package checksum written to the lockfile in base 16 is read back as the same bytes, and reading accepts exactly valid base-16 text.", "quantifier": "all byte strings", "why_tests_cant": "all byte strings", "anchors": ["compiler-core/src/manifest.rs: Base16Checksum"]}
{"id": "C42", "title": "The reported dependency changes are the real changes", "statement": "The added/removed/changed package lists shown after resolving are exactly the difference between the old and new lockfiles.", "quantifier": "all pairs of manifests", "why_tests_cant": "all pairs of maps", "anchors": ["compiler-core/src/manifest.rs: PackageChanges::between_manifests"]}
{"id": "C43", "title": "Generated ids are unique", "statement": "Ids handed out by the shared id generator are pairwise distinct under any interleaving of requests.", "quantifier": "all schedules", "why_tests_cant": "all interleavings", "anchors": ["compiler-core/src/uid.rs: UniqueIdGenerator"]}
{"id": "C44", "title": "Merging source spans covers both and nothing more", "statement": "The merge of two spans is the smallest span containing both; containment is a partial order.", "quantifier": "all spans", "why_tests_cant": "all spans", "anchors": ["src-span/src/lib.rs: SrcSpan"]}
{"id": "C45", "title": "Out-of-range editor positions are clamped", "statement": "Converting an editor position that lies outside the text yields the nearest position inside it: the end of the text for a line past the last one, the end of the line for a column past the end of its line.", "quantifier": "all texts and all editor positions", "why_tests_cant": "all texts and positions", "anchors": ["src-span/src/lib.rs: LineNumbers::byte_index"]}
{"id": "C46", "title": "Whole-line spans are recognised", "statement": "A span is reported as covering an entire line exactly when it starts at the start of a line and is directly followed by a line break.", "quantifier": "all texts and spans", "why_tests_cant": "all texts and spans", "anchors": ["src-span/src/lib.rs: LineNumbers::spans_entire_line"]}
{"id": "C47", "title": "Erlang names of types and constructors do not clash", "statement": "Two constructors with different names are represented by different Erlang atoms, two custom types of a module get different Erlang type names, and no custom type shadows a type name Erlang predefines.", "quantifier": "all valid type and constructor names", "why_tests_cant": "all pairs of names", "anchors": ["compiler-core/src/strings.rs: to_snake_case", "compiler-core/src/erlang.rs: erl_safe_type_name"]}
{"id": "C48", "title": "A string literal denotes the same text in the compiler, on Erlang and on JavaScript", "statement": "For every string literal the lexer accepts, the characters it denotes by the language's escape rules are those the compiler computes for it, those an Erlang compiler reads from the generated Erlang literal and those a JavaScript engine reads from the generated JavaScript literal; every literal written with allowed escapes is accepted.", "quantifier": "all source texts, including CRLF and CR line endings, all escapes", "why_tests_cant": "all texts and interactions of backslashes with `u` and braces", "anchors": ["compiler-core/src/parse/lexer.rs: lex_string", "compiler-core/src/strings.rs: convert_string_escape_chars", "erlang-generation/src/lib.rs: escape_literal_string_content", "compiler-core/src/javascript/expression.rs: string"]}
{"id": "C49", "title": "Formatting keeps the grouping of operators", "statement": "Formatting a parsed expression or guard and parsing the printed text again yields the same tree: the formatter adds or removes no braces in a way that changes which operands an operator is applied to.", "quantifier": "all token sequences the parser accepts as an operator expression or guard, nested blocks at any depth", "why_tests_cant": "all combinations of operators and nestings", "anchors": ["format/src/lib.rs: bin_op, bin_op_side, operator_side, pipeline, clause_guard", "compiler-core/src/parse.rs: parse_expression, parse_clause_guard_inner"]}
{"id": "C50", "title": "Source map positions point at the generated code", "statement": "Every position recorded for a source map while printing is the line and the UTF-16 column of the character of the printed text that follows the recorded point.", "quantifier": "all documents, nestings, limits and places of the recorded point", "why_tests_cant": "all documents and layouts decided by width", "anchors": ["pretty-arena/src/lib.rs: format", "compiler-core/src/javascript.rs: SourceMapCursorPositionObserver"]}
{"id": "C51", "title": "Removing a dependency leaves exactly the needed packages in the lockfile", "statement": "After dependencies are removed from a project whose remaining requirements match the lockfile, the lockfile lists exactly the packages reachable from the remaining requirements, each unchanged.", "quantifier": "all lockfiles without cyclic requirements, all sets of removed dependencies", "why_tests_cant": "arbitrary dependency graphs", "anchors": ["compiler-cli/src/remove.rs: command", "compiler-cli/src/dependencies.rs: remove_extra_requirements, unlock_packages"]}
{"id": "C52", "title": "Updating named packages unlocks them and only what nothing else holds", "statement": "Unlocking named packages leaves none of them locked, keeps every other version as it was, and unlocks another package exactly when an unlocked package required it and neither the project nor a still locked package does.", "quantifier": "all lockfiles and all lists of names", "why_tests_cant": "arbitrary dependency graphs, work list order", "anchors": ["compiler-cli/src/dependencies.rs: unlock_packages, find_deps_to_unlock"]}
{"id": "C53", "title": "Downloaded packages match the lockfile", "statement": "After any history of successful dependency downloads the build directory holds, for every hex or git package of the lockfile, the released version or the commit the lockfile names.", "quantifier": "all histories of lockfiles", "why_tests_cant": "arbitrary histories of versions and sources", "anchors": ["compiler-cli/src/dependencies.rs: LocalPackages, add_missing_packages, remove_extra_packages"]}
{"id": "C54", "title": "Inequality is the negation of equality", "statement": "For all values a and b of one type, a != b is True exactly when a == b is False, in expressions and in guards.", "quantifier": "all pairs of values", "why_tests_cant": "all values, nested to any depth", "anchors": ["compiler-core/src/erlang.rs: binary_operator, clause_guard"]}
{"id": "C55", "title": "Slicing a bit array on JavaScript gives the bits asked for", "statement": "Taking bits a to b of a bit array yields a bit array with exactly those bits, whatever the position of the array within its bytes and however it was made; a range outside the array is refused.", "quantifier": "all bit arrays, offsets and ranges", "why_tests_cant": "all alignments and lengths", "anchors": ["compiler-core/templates/prelude.mjs: BitArray, bitArraySlice, bitArrayValidateRange"]}
{"id": "C56", "title": "Building a bit array on JavaScript concatenates its segments", "statement": "A bit array expression yields the bits of its segments in order, without gaps, for every mix of bytes, byte sequences and bit arrays at every alignment.", "quantifier": "all lists of segments", "why_tests_cant": "all alignments of segments and cursor", "anchors": ["compiler-core/templates/prelude.mjs: toBitArray"]}
{"id": "C57", "title": "Bit arrays on JavaScript are equal exactly if their bits are", "statement": "Two bit arrays compare equal iff they have the same bits; bits of the buffer outside the array do not matter.", "quantifier": "all pairs of bit arrays with any offsets", "why_tests_cant": "all alignments and lengths", "anchors": ["compiler-core/templates/prelude.mjs: BitArray.equals, bitArrayByteAt"]}
{"id": "C58", "title": "Integer segments of bit arrays on JavaScript are written and read as on Erlang", "statement": "An integer segment of n bits holds the low n bits of the integer in two's complement with the chosen byte order; reading n bits gives the integer they stand for, signed or unsigned; an integer that fits its segment is read back unchanged.", "quantifier": "all integers a JavaScript number can hold, all sizes, alignments, byte orders, signed and unsigned", "why_tests_cant": "all sizes, several code paths by size and alignment", "anchors": ["compiler-core/templates/prelude.mjs: sizedInt, bitArraySliceToInt, intFromAlignedSlice, intFromUnalignedSliceUsingNumber, intFromUnalignedSliceUsingBigInt"]}
{"id": "C59", "title": "A bit array pattern matches exactly the bit arrays it describes", "statement": "The tests made of a bit array pattern succeed on a bit array exactly if its bits can be taken from left to right by the segments of the pattern with nothing left over, every literal found and every float finite; the variables get the values of their segments, and a size that mentions an earlier segment uses that segment's value.", "quantifier": "all patterns, bit arrays and values of the variables used in sizes", "why_tests_cant": "unbounded patterns and sizes, sizes that depend on earlier segments", "anchors": ["compiler-core/src/exhaustiveness.rs: bit_array_to_tests, segment_size, bit_array_size, Offset::add_size"]}
{"id": "C60", "title": "A minus sign directly after an operand is an operator", "statement": "In a text such as x-1, where a minus sign directly follows the end of an operand and a digit follows it, the minus sign is read as the operator and not as part of the number.", "quantifier": "all source texts, all tokens that can end an operand", "why_tests_cant": "all contexts in which the characters can stand", "anchors": ["compiler-core/src/parse/lexer.rs: check_for_minus, lex_number, lex_dot"]}
{"id": "C61", "title": "Tokens that are written are read back", "statement": "Any sequence of names, keywords, numbers, strings and operators, written one after the other with a space after each, is read without an error as these tokens, with the values the numbers and strings denote and the spans where they are written.", "quantifier": "all sequences of tokens and all ways to write them", "why_tests_cant": "unboundedly many names, literals (bases, underscores, exponents, escapes) and combinations", "anchors": ["compiler-core/src/parse/lexer.rs: consume_normal, lex_name, lex_upname, lex_number, lex_string, consume_character"]}
{"id": "C62", "title": "The Erlang compiler reads the generated source as the program the code generator built", "statement": "The text printed for an Erlang module is syntactically correct, and the Erlang parser reads it as the syntax tree that the code generator asked for: operands stay with their operators whatever the precedences, names and atoms are not taken for reserved words, strings end where they should, blocks, clauses, guards and segments keep their parts.", "quantifier": "all modules: all nestings of expressions, patterns, clauses, segments, all names, numbers, strings and documentation texts", "why_tests_cant": "unbounded nesting of constructs and arbitrary names and texts; every pair of constructs can be adjacent", "anchors": ["erlang-generation/src/lib.rs: ErlangSourceBuilder, new_expression, new_pattern, close_currently_open_item, pop_leftover_items, quote_atom_name, doc_content", "compiler-core/src/erlang.rs: module_document, expression"]}
{"id": "C63", "title": "Running the generated Erlang gives the same as evaluating the Gleam program", "statement": "The Erlang source generated for a module is accepted by the grammar of Erlang, and calling any of its functions with any values does what the Gleam function does: it returns the same value, raises the error with the same kind, message and line (and for a let assert the value and the places in the source), or does not end, and it calls the functions of other modules with the same arguments in the same order. This holds whatever these functions do, and however variables are shadowed, nested or named. The Erlang module has the name that other modules call it by, and exports exactly the importable functions with their arities.", "quantifier": "all modules (functions, closures, case with guards and alternatives, let, let assert, pipelines, use of records, tuples, lists, strings and integers), all arguments, all depths of calls, all behaviours of other modules", "why_tests_cant": "unboundedly many programs; names, scopes and operators interact with each other", "anchors": ["compiler-core/src/erlang.rs: module_document, FunctionGenerator, expression, statement_sequence, let_assert, case, clause_guard, string_concatenate, pipeline", "compiler-core/src/erlang/pattern.rs: PatternGenerator"]}
{"id": "C64", "title": "Running the generated JavaScript gives the same as evaluating the Gleam program", "statement": "Calling any function of the JavaScript module generated for a Gleam module, with any values, does what the Gleam function does: it returns the same value, throws the error with the same kind, message and line (and for a let assert the value and the places in the source), or does not end, and it calls the functions of other modules with the same arguments in the same order. This holds however expressions that JavaScript only has as statements are nested, however variables are shadowed and captured by functions, and also for functions that call themselves last, which become loops.", "quantifier": "all modules (functions, closures, case with alternatives and guards, let, let assert, pipelines, blocks, records, tuples, lists, strings and integers), all arguments, all depths of calls, all behaviours of other modules", "why_tests_cant": "unboundedly many programs; positions, scopes, numbering of variables and loops interact with each other", "anchors": ["compiler-core/src/javascript/expression.rs: Generator, expression, wrap_expression, wrap_block, immediately_invoked_function_expression, block, statements, pipeline, call, fn_, tail_call_loop, Scope", "compiler-core/src/javascript/decision.rs: case, let_, inside_new_scope, decision_guard, body_expression, assign_case_subjects, assign_let_subject"]}
{"id": "C65", "title": "Accepted modules do not go wrong", "statement": "If the type checker accepts a module, then calling any of its functions with values of the types of its parameters never performs an operation on a value of the wrong kind: no arithmetic on something that is not a number, no call of something that is not a function or with another number of arguments, no match against a pattern of another type, no access to a field or an element that does not exist. If the call returns a value, it is a value of the function's result type.", "quantifier": "all modules (custom types, recursive groups of functions, closures, case with alternatives and guards, let, let assert, assert, lists, tuples, records, annotations with type variables and holes), all arguments, all depths of calls", "why_tests_cant": "unboundedly many programs; inference order, sharing of type variables, generalisation and rigid variables interact", "anchors": ["compiler-core/src/type_/expression.rs: ExprTyper, infer_or_error, do_infer_value_constructor, scoped, do_infer_call, infer_fn_with_known_types, infer_clause_guard", "compiler-core/src/type_/pattern.rs: PatternTyper::unify, insert_variable", "compiler-core/src/type_/hydrator.rs: Hydrator::type_from_ast", "compiler-core/src/type_/environment.rs: instantiate, unify", "compiler-core/src/type_.rs: generalise, match_fun_type, named_type_arguments", "compiler-core/src/analyse.rs: register_value_from_function, infer_function, generalise_function"]}
{"id": "C66", "title": "Annotated functions have the types they are annotated with", "statement": "If the type checker accepts a module, then the type other functions and modules see for each function is what its annotations say: every annotated parameter and result has the annotated type, the same type variable stands for the same type throughout the head, and different type variables are independent: the function can be used with any types in place of its type variables.", "quantifier": "all accepted modules, all functions, all annotations, all types put for the type variables", "why_tests_cant": "unboundedly many annotations and bodies; a body may unify the type variables of an annotation with each other or with a type, in any order and through any number of other functions", "anchors": ["compiler-core/src/type_/hydrator.rs: Hydrator::type_from_ast", "compiler-core/src/analyse.rs: register_value_from_function, infer_function, generalise_function", "compiler-core/src/type_.rs: generalise"]}
{"id": "C67", "title": "Inferred types are the most general ones", "statement": "For a module without annotations that the type checker accepts, the types it reports for the functions are types the functions can be given, and most general: whichever types the functions can be given, they are the reported ones with types put for their type variables.", "quantifier": "all accepted modules without annotations, all typings of them", "why_tests_cant": "unboundedly many programs and, for each, infinitely many typings", "anchors": ["compiler-core/src/type_/expression.rs: ExprTyper, do_infer_call, infer_fn_with_known_types", "compiler-core/src/type_/pattern.rs: PatternTyper::unify", "compiler-core/src/type_/environment.rs: instantiate, unify", "compiler-core/src/type_.rs: generalise, match_fun_type", "compiler-core/src/analyse.rs: register_value_from_function, infer_function, generalise_function"]}
{"id": "C68", "title": "Typable modules are not rejected", "statement": "A module without annotations whose functions can be given types, with different names for its functions, constructors, labels, parameters and pattern variables, is accepted by type inference.", "quantifier": "all modules without annotations for which there is a typing", "why_tests_cant": "unboundedly many programs; whether a program is accepted may depend on the order in which types are found out", "anchors": ["compiler-core/src/type_/expression.rs: ExprTyper, infer_field_access, infer_tuple_index", "compiler-core/src/type_/pattern.rs: PatternTyper::unify, insert_variable", "compiler-core/src/type_/environment.rs: instantiate, unify", "compiler-core/src/analyse.rs: infer_function"]}
{"id": "C69", "title": "Type inference comes to an end", "statement": "For every module, well-typed or not, type inference comes to an end with the types of the functions or with an error: it does not follow type variables in circles, build infinite types, or panic because a type variable is borrowed while it is changed.", "quantifier": "all modules: all expressions, patterns, annotations, groups of recursive functions", "why_tests_cant": "infinitely many programs, also wrong ones; a circle needs a particular chain of unifications", "anchors": ["compiler-core/src/type_/environment.rs: unify, instantiate, unify_unbound_type", "compiler-core/src/type_.rs: generalise, match_fun_type, named_type_arguments, collapse_links", "compiler-core/src/type_/expression.rs: ExprTyper", "compiler-core/src/type_/pattern.rs: PatternTyper::unify", "compiler-core/src/analyse.rs: infer_module_type"]}
{"id": "C70", "title": "A printed type means the type in the module it is printed for", "statement": "When the compiler shows a type to a reader of a module (in errors, hovers and the annotations it writes), the text can be put into that module as an annotation and means the type: every type's name in it stands for the type it was printed for, different type variables have different names, and a type variable that has a name in the source is printed with it.", "quantifier": "all modules with any imports, aliases, re-exports and shadowed names, all types, all types printed before by the same printer, all names of type variables", "why_tests_cant": "unboundedly many combinations of imports, renamings, aliases with permuted parameters and names of type variables; a wrong name needs a particular collision", "anchors": ["compiler-core/src/type_/printer.rs: Names, Printer, named_type, type_in_scope, compare_arguments, maybe_register_reexport_alias, type_variable, next_letter", "compiler-core/src/type_/environment.rs: build_names, insert_type_constructor, get_type_constructor", "compiler-core/src/analyse/imports.rs: register_module, register_unqualified_type", "compiler-core/src/parse.rs: parse_type", "compiler-core/src/type_/hydrator.rs: type_from_ast"]}
{"id": "C71", "title": "Code is left out for exactly the definitions that nothing exported uses", "statement": "A function, constant or type of a module is left out of the generated code if and only if it is private and no public definition of the module refers to it, itself or through other definitions. In particular no definition that the generated code needs is missing.", "quantifier": "all modules: all imports, definitions and references between them, in every order in which the compiler's hash maps are visited", "why_tests_cant": "unboundedly many graphs of references, with cycles and names that hide others; a missing function is found only by running the code that needs it", "anchors": ["compiler-core/src/reference.rs: ReferenceTracker, register_value, register_constant, create_node_and_maybe_shadow, add_reference_edge, unused, mark_entity_as_used", "compiler-core/src/type_/environment.rs: handle_unused", "compiler-core/src/analyse.rs: infer_module, register_value_from_function, infer_module_constant", "compiler-core/src/erlang.rs: module_function", "compiler-core/src/javascript.rs: custom_type_definition, module_constant, module_function"]}
{"id": "C72", "title": "What is reported as unused is not used", "statement": "Everything the compiler reports as unused, a definition or an import, is not used by a public definition, itself or through others; an imported type or value that no public definition uses is reported; and a module that some definition refers to is not reported as unused.", "quantifier": "all modules: all imports, aliases, definitions and references between them, in every order in which the compiler's hash maps are visited", "why_tests_cant": "unboundedly many combinations of imports, aliases, hidden names and references", "anchors": ["compiler-core/src/reference.rs: ReferenceTracker, register_aliased_module, register_module, register_module_reference_from_imported_entity, unused, mark_referenced_imports_as_used", "compiler-core/src/analyse/imports.rs: register_module, register_unqualified_value, register_unqualified_type"]}
{"id": "C73", "title": "Pipelines, `use`, captures and record updates mean what the language says", "statement": "A program with pipelines, `use`, function captures and record updates returns the same values, fails in the same way and calls other functions in the same order after the compiler has taken these notations apart as the meaning of the notations says: a piped value is the first argument (or the argument of what the call returns), the statements after a `use` are the function that is its last argument, a capture evaluates its parts when it is called, and an updated record has the given fields and the old ones.", "quantifier": "all modules, functions, arguments, nestings of the notations, depths of calls, and answers of other modules", "why_tests_cant": "unboundedly many nestings of notations in each other, where the variables that the compiler makes up could be confused", "anchors": ["compiler-core/src/parse.rs: make_call", "compiler-core/src/type_/pipe.rs: PipeTyper", "compiler-core/src/type_/expression.rs: infer_use, UseAssignments, get_use_expression_call, infer_record_update, infer_record_update_arguments", "compiler-core/src/ast.rs: PIPE_VARIABLE, USE_ASSIGNMENT_VARIABLE, RECORD_UPDATE_VARIABLE, CAPTURE_VARIABLE"]}
{"id": "C74", "title": "Formatting a number keeps its value", "statement": "The formatter writes every integer and float literal as a literal that the compiler reads as the same number, and formatting it again changes nothing; decimal integers of five digits or more have underscores between groups of three digits, and integers in other bases stay as they are.", "quantifier": "all texts that the lexer accepts as integers or floats, of any length, with any underscores, signs, bases and exponents", "why_tests_cant": "unboundedly many literals; a wrong digit or a misplaced underscore changes or breaks the program", "anchors": ["format/src/lib.rs: int, float, underscore_integer_string", "compiler-core/src/parse/lexer.rs: lex_number"]}
{"id": "C75", "title": "Formatting a pattern keeps what it matches", "statement": "A pattern that is formatted is read by the compiler again, whatever the length of a line and however it is broken over lines; it matches the same values and binds the same variables, and formatting it again changes nothing.", "quantifier": "all texts that are read as patterns without bit arrays and comments, all nestings, all lengths of lines and widths of characters", "why_tests_cant": "unboundedly many nestings of patterns and ways to break them over lines", "anchors": ["format/src/lib.rs: pattern, list_pattern, pattern_constructor, pattern_call_arg, wrap_arguments, wrap_arguments_with_spread, string", "compiler-core/src/parse.rs: parse_pattern, expect_constructor_pattern, parse_constructor_pattern_argument, series_of", "pretty-arena/src/lib.rs: break_, nest_if_broken"]}
{"id": "C76", "title": "Formatting a type annotation keeps the type", "statement": "A type annotation that is formatted is read by the compiler again, whatever the length of a line and however it is broken over lines; in every scope in which it stood for a type it stands for the same type, and formatting it again changes nothing.", "quantifier": "all texts that are read as type annotations, all nestings, all lengths of lines and widths of characters, all scopes", "why_tests_cant": "unboundedly many nestings of types and ways to break them over lines", "anchors": ["format/src/lib.rs: type_ast, type_ast_constructor, type_arguments, wrap_arguments", "compiler-core/src/parse.rs: parse_type, parse_type_name_finish, parse_types, series_of", "compiler-core/src/type_/hydrator.rs: type_from_ast"]}
{"id": "C77", "title": "Formatting imports keeps what they import", "statement": "Imports that are formatted are read by the compiler again, whatever the length of a line; they import the same modules, types and values, and each is used by the same name as before. They are in the order of their names, and formatting them again changes nothing.", "quantifier": "all texts with imports, all numbers of imports and of types and values in them, all second names, all lengths of lines and widths of characters", "why_tests_cant": "unboundedly many imports and orders of them", "anchors": ["format/src/lib.rs: sorted_import_group, unqualified_import, definition", "compiler-core/src/parse.rs: parse_import, parse_unqualified_imports", "compiler-core/src/ast.rs: Import::used_name, UnqualifiedImport::used_name"]}
{"id": "C78", "title": "Formatting a type definition keeps it", "statement": "A custom type or type alias that is formatted is read by the compiler again as the same definition, whatever the length of a line: it is public or opaque as before, has the same name and parameters, and the same constructors, deprecated as before, with the same labels and types in the same order. Formatting it again changes nothing.", "quantifier": "all texts with a definition of a type, all numbers of constructors and fields, all depths of annotations, all lengths of lines and widths of characters", "why_tests_cant": "unboundedly many definitions and line lengths", "anchors": ["format/src/lib.rs: custom_type, type_alias, record_constructor", "compiler-core/src/parse.rs: parse_custom_type, expect_type_name, parse_record_constructor, parse_record_constructor_field"]}
{"id": "C79", "title": "Formatting keeps the attributes of a type definition", "statement": "A custom type or type alias with attributes that is formatted is read by the compiler again with the same attributes, in whatever order they were written and whatever the length of a line: the same target, the same deprecation message, the same external module and name for each target, and internal if it was. Formatting it again changes nothing.", "quantifier": "all texts with a definition of a type, all combinations and orders of attributes, all strings in them, all lengths of lines and widths of characters", "why_tests_cant": "unboundedly many strings, definitions and line lengths", "anchors": ["format/src/lib.rs: AttributesPrinter::to_doc, targeted_definition", "compiler-core/src/parse.rs: parse_attributes, parse_attribute, parse_external_attribute, parse_target_attribute, parse_deprecated_attribute, parse_internal_attribute, publicity, parse_definition"]}
{"id": "C80", "title": "Formatting a function keeps its signature", "statement": "The signature of a function that is formatted, whatever its body, is read by the compiler again as the same signature, whatever the length of a line: the same attributes, public if it was, the same name, the same labels, names and annotations of the parameters in the same order, and the same annotation of what it returns. A function without a body stays without one. Formatting it again changes nothing.", "quantifier": "all texts with a function, all numbers of parameters, all bodies that are written as tokens, all depths of annotations, all lengths of lines and widths of characters", "why_tests_cant": "unboundedly many signatures and line lengths", "anchors": ["format/src/lib.rs: statement_fn, fn_arg, argument_names", "compiler-core/src/parse.rs: parse_function, parse_fn_param, parse_type_annotation"]}
{"id": "C81", "title": "Formatting a file of declarations keeps what it declares", "statement": "A file of imports, definitions of types, constants with a simple value and functions (with no body, with a simple one, or with any if formatting keeps bodies) that is formatted is a file that the compiler reads again to its end as the same imports, sorted and used by the same names, and the same types, constants and functions in the same order, with the same attributes. Nothing is lost, added or joined with what stands next to it, whatever the length of a line. Formatting it again changes nothing.", "quantifier": "all such files, all numbers of definitions, all lengths of lines and widths of characters, all empty lines between constructors", "why_tests_cant": "unboundedly many files; what stands next to a definition may change how it is read", "anchors": ["format/src/lib.rs: module, imports, targeted_definition, definition, const_expr", "compiler-core/src/parse.rs: parse_module, parse_definition, parse_module_const, parse_const_value, ensure_no_errors_or_remaining_input"]}
{"id": "C82", "title": "Formatting a function keeps its statements", "statement": "The body of a function that is formatted is read by the compiler again as the same statements in the same order, whatever the length of a line and whichever empty lines are kept: a `let` gives the same name, with the same annotation, to the same value, what was asserted is asserted, and what was called is called with the same arguments in the same order. No statement is lost or joined with the next. Formatting it again changes nothing.", "quantifier": "all files, all numbers of functions and statements, all depths of calls, all lengths of lines and widths of characters, all empty lines between statements", "why_tests_cant": "unboundedly many sequences of statements; how a statement is read depends on what follows it", "anchors": ["format/src/lib.rs: statements, statement, assignment, assert, assigned_value, case_clause_value, call, append_inlinable_wrapped_arguments, wrap_function_call_arguments", "compiler-core/src/parse.rs: parse_expression_unit, parse_fn_arguments, parse_statement_sequence, parse_statement, parse_assignment, parse_assert"]}
