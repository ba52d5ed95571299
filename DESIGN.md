# A machine-checked model of the Gleam compiler (gleam-lang/gleam) in Lean 4

## Layout

* `properties.jsonl` – the English properties (C01, C02, ...).
* `lean/Verif/<Area>/Model.lean` – definitions that mirror the Rust (or JavaScript) source function by
  function. Each definition cites the file and lines in `/repo`; a simplification is stated in the same comment.
* `lean/Verif/<Area>/Spec.lean` – the specification: small, independent of the model's helpers.
* `lean/Verif/<Area>/Lemmas.lean` – helper lemmas.
* `lean/Verif/<Area>/Props.lean` – the property theorems only, each with a non-vacuity `example` beside it.
* `MANIFEST.json` – property → theorem names and status. `seeded/LOG.jsonl` – results of seeding bugs in the model.

## Trusted base

* Lean 4.33.0's kernel. No axioms are added; the theorems depend at most on `propext`,
  `Classical.choice` and `Quot.sound` (checked with `#print axioms`; see the last section).
* The reading of the Rust text: the code is not executed here. Every definition cites its source.
* The contracts of external crates named in each section (they are modelled by a function satisfying
  their documented behaviour, or appear as explicit hypotheses).

General modelling conventions: `&mut` becomes a returned value, `Result`/`Option` stay data, a panic
is an explicit error value, machine integers are `Nat`/`Int` unless the property is about their size.

## Plan per property

| id | what is modelled | how it is proved |
|----|------------------|------------------|
| C01 | `Version`, `Ord` impl, `PreOrder`, `Identifier` | order laws by induction on identifier lists, against a spec order written independently |
| C02 | lexer, parser and `Display` on character lists | round trip: characterise the parser's image, then lex/parse the printed text |
| C03 | same | negation with witness (`1.0.0-order`), partial theorem under the exact side condition |
| C04 | range parser to interval unions (pubgrub `Range` as set of versions) | denotational: membership; negations for pre-releases; partial for the rest |
| C05 | `LowestVersion` on interval lists | direct |
| C06 | `Builder` as byte-list writer | decoder written from the ETF spec; `decode (encode t ++ rest) = (t, rest)`; negation for >255 byte integers |
| C07, C08 | `LineNumbers` on texts as lists of chars with UTF-8/16 widths | refinement to a spec that walks the text |
| C09, C10 | `FieldMap.reorder` | loop invariant over the descending loop, reinsertion lemma |
| C11 | UTF-16/32 encoders | round trip with spec decoders |
| C12 | case conversion with ASCII classification | induction |
| C13 | `handle_operator` loop with explicit stacks | invariant over the two stacks; uniqueness of well-bracketed tree |
| C14-C16 | `format`/`fits` as in pretty-arena | induction on the work list |
| C17 | full constant table | `decide` over the whole table; lists the wrong entries |
| C18, C19 | file system maps and operations | invariants over histories, refinement to a function `path → option` |
| C20 | `toposort_deps`, `import_cycle`; petgraph's toposort as its documented contract | proofs by list/graph induction |
| C21 | name environment threading over an expression AST | edges ⊇ free references (negation for let-assert message); SCC order as contract |
| C22 | remover on finite graphs | reachability; non-termination on cycles shown |
| C23-C25 | types with mutable variable cells as a store | measure for termination, soundness, occurs check, most general unifier |
| C26, C27, C60, C61 | lexer on characters with positions, iterator | step invariant; each token read after induction on its text |
| C28-C32, C59 | decision-tree compiler for constructor/literal/tuple/list/string-prefix patterns; JS if-chain semantics with merging | simulation between branch lists and first-match semantics; string prefix negation |
| C33, C34 | disk state (sources with mtimes, caches, outputs), builds with failure/crash points, edits | invariant over histories; negations with concrete histories |
| C35 | worklist loop | reachability |
| C36 | processes with lock programs, interleaving semantics | invariant + lock-order argument |
| C37 | binary searches over comment spans | correctness given sorted comments |
| C38, C39 | prelude.mjs runtime functions over mathematical integers and value trees | arithmetic; structural induction |
| C40 | name escaping | injectivity on Gleam identifiers |
| C41, C42 | base16, manifest diff | round trip; set equality |
| C43 | atomic counter under interleavings | invariant |
| C44 | `SrcSpan` | order theory |
| C62 | the calls of `ErlangBuilder`, the stack of positions, the printed text | the calls print a text given by recursion on the term; a scanner and a parser written from `erl_scan`/`erl_parse.yrl` read it back |
| C63 | `FunctionGenerator` and `PatternGenerator` of the Erlang code generator; evaluators for the source and for Erlang syntax trees, written apart | simulation: related environments, then induction on the expression and on the number of nested calls; composed with C62 |
| C64 | the `Generator` of the JavaScript code generator: positions, lifting of statements, scopes, loops; an evaluator for JavaScript with cells for variables | simulation: related environments and stores, induction on the expression and on the number of calls and iterations; the programs it gets wrong as theorems |
| C65 | type inference: scopes, patterns, calls, annotations, instances, groups of functions and generalisation, on the heap of `Unify`; an evaluator in which wrong operations are errors | typing rules; accepted programs meet them (each step refines the reading of the heap and invents no generic variables), programs that meet them are safe (induction on the expression and on the number of calls); the programs it gets wrong as theorems |
| C66 | the same | a small specification of what an annotation allows (`AnnotationSpec.lean`); the generic variables made for the head of a function stay what they are through every inference step (`Keeps.lean`), and generalisation gives each its own id |
| C67 | the same, for modules without annotations | a typing of modules apart from inference (`PrincipalSpec.lean`); a solution, an assignment for the unbound variables that gives each type of the typing, is kept by every inference step (`Best*.lean`); generalised types of accepted functions are types of them (`BareTyped.lean`) |
| C68 | the same | the same induction: no step that the typing allows rejects; a record field of a parameter is rejected although there is a typing (theorem) |
| C69 | the same, for all modules | unification does not look at variables that are not made yet (`Local.lean`), so its measure of Unify applies; every step of inference has one outcome for all large fuels (`Ends.lean`, `EndsExpr.lean`) |
| C70 | how types are printed (`Names`, `Printer`), the declarations that keep the names, and how the text of a type is read (lexer of C26, `parse_type`, `type_from_ast`) | the text of a type is followed through the lexer and the parser; an invariant of the declarations says what each written name stands for; a printer gives each variable its own name |
| C71 | the reference tracker (`reference.rs`), the calls of it in the analysis of a module, and the positions for which the code generators leave code out | an invariant says that the graph has an edge exactly where a definition uses another, also when names are hidden; marking removes exactly what is reached from public definitions |
| C72 | the same, for imports | the same, and a counterexample for modules |
| C73 | how the parser and the type checker take pipelines, `use`, captures and record updates apart, and two evaluators: for programs as they are written and for typed programs (that of C63) | a simulation: functions, captures and `use` callbacks of the one evaluator are related to closures of the other; with C63 also for the Erlang code |
| C74 | `int`, `float` and `underscore_integer_string` of the formatter | the text of every number the lexer accepts is an optional sign, digits in groups and a rest; the value of the digits does not depend on where the underscores are |
| C75 | how the formatter writes patterns as documents, and how the parser reads patterns | every layout of the document (C28: what is printed is a layout) has the tokens of the pattern, with or without a comma at the end; the parser reads these tokens as the normal form of the pattern, by induction on the pattern |
| C76 | how the formatter writes type annotations as documents; the parser and the meaning of annotations are those of C70 | as C75: every layout has the tokens of the annotation, the parser reads these as the annotation without empty parentheses, and that stands for the same type in every scope, each by induction on the annotation |
| C77 | how the formatter writes a group of imports as a document, with its sorting, and how the parser reads imports | as C75 for the text; sorting is proved to be a stable permutation into the order of names, and dropping a second name that is not needed to keep the name that is used |
| C78 | how the formatter writes a definition of a type (custom types with constructors, aliases) as a document, and how the parser reads it | as C75 and C76 for the text; the parser is proved to read the tokens of a written definition, and to return only definitions that can be written |
| C79 | how the formatter writes the attributes of a definition of a type, and how the parser reads attributes in any order | as C78; the parser is proved to read the written attributes back one by one, and to return only attributes that can be written |
| C80 | how the formatter writes the signature of a function around a body that is any document, and how the parser reads it up to the body | as C78 and C79; the body is assumed to be written as tokens, whichever they are |
| C81 | whole files of imports, types, constants and functions, for any way to write and read bodies that keeps them: how the formatter writes them and how the parser reads them to the end | from C77 to C80, by induction on the definitions; no token is left |
| C82 | bodies of functions: how the formatter writes statements and nested calls and how the parser reads them | an instance of the parameter of C81; by induction on the statements and on the expressions, with what follows as a condition |

This table is refined below as the areas are finished.

## Finished areas

### Source positions (`SrcSpan`, C07 C08 C44 C45 C46)

Modelled: `LineNumbers::{new,line_number,line_and_utf8_column_number,line_and_utf16_column_number,
byte_index,spans_entire_line}`, `SrcSpan::{merge,contains,...}`. Texts are lists of characters with their UTF-8
and UTF-16 widths. Not modelled: 32-bit overflow of offsets.
Disagreements: the UTF-8 column is 0-based although documented as 1-based; `byte_index` clamps lines
but not columns (`byteIndex_column_not_clamped`).

### Labelled arguments (`Fields`, C09 C10)

Modelled: `FieldMap::{reorder,missing_labels}`, `FieldMapBuilder`. Maps are association lists with the
lookups the code performs; spans of errors are kept, wording is not.

### Versions (`Version`, C01-C05)

Modelled: `hexpm/src/version.rs`, `version/lexer.rs`, `version/parser.rs` completely, on character lists;
pubgrub's `Range<Version>` (external) as a list of interval segments with `contains`, union, intersection and
complement-like constructors following its documented contract.
Disagreements (theorems): `cmp_eq_is_not_eq` (Ord and Eq disagree), `semver_version_rejected`,
`gt_excludes_release`, `build_in_requirement_rejected`, `lowest_version_not_member`. `bump_*` at `u32::MAX`
panics (overflow) in debug builds; in the model it is an explicit rejection, so the theorems exclude it.

### Erlang term format writer (`Etf`, C06)

Modelled: the builder methods of `erlang-term-format/src/lib.rs` as functions appending to a byte list, and the
terms the compiler can build with them. The decoder in `Etf/Spec.lean` is written from the External Term Format
documentation. Floats are kept as their eight bytes.
Disagreements: `bigint_truncated` (length byte wraps at 256 bytes), `atom_truncated` (length wraps at 65536),
`usize_wraps` (values of 2^31 and more are written as 32-bit signed).

### Strings and names (`Strings`, C11 C12 C47 C48)

Modelled: `strings.rs` completely, `lex_string` and `NewlineHandler` of the lexer (positions and error details
dropped), `analyse/name.rs` with its three regular expressions, `escape_literal_string_content`, the JavaScript
`string` printer, `erl_safe_type_name`. `char::is_uppercase` is a parameter assumed to agree with `A`-`Z` on
ASCII. The escape syntax of Erlang and JavaScript strings in `Spec.lean` is transcribed from their references.
Disagreement: `suggested_upper_invalid`.

### Operators (`Operators`, C13 C49)

Modelled: the operator-precedence loop shared by `parse_expression`, `parse_clause_guard_inner`,
`parse_const_value` and `expect_bit_array_size`, `handle_operator`, the reductions, the three precedence tables, the
operand syntax of guards, and the formatter's `bin_op`, `pipeline`, `clause_guard` up to layout. Operands of
expressions are opaque tokens. `Operators/Spec.lean` says what a grouped tree is and holds the documented table.
No disagreement found.

### Pretty printer (`Pretty`, C14-C17 C50)

Modelled: all of `pretty-arena/src/lib.rs`: `format`, `fits`, the document constructors (`group`, `append`, `concat`,
`join`, `surround`), and the tables of constant fragments, copied from the file. The queue loops are recursive
functions whose termination Lean checks. Grapheme counting is not modelled: as in the code the count is a field of the
text. `isize` is unbounded.
Disagreements: `declared_widths_wrong` (five constants), `observed_column_wrong` (source map columns are counted in
graphemes).

### Module order (`DepTree`, C20)

Modelled: `dep_tree.rs` and `convert_deps_tree_error`. petgraph's `toposort` is external: its published algorithm (depth first
search from every node, finish order reversed, then a search of the reversed graph that finds cycles) is modelled, and the
theorems are proved about that algorithm. Module names are assumed distinct, as the loader rejects duplicates first.

### Lockfile and packages (`Project`, C22 C35 C42 C51 C52)

Modelled: `stale_package_remover.rs`, `retain_only_production_packages`, `unlock_packages`, `find_deps_to_unlock`,
`remove_extra_requirements`, `PackageChanges::between_manifests`. Maps are association lists; versions and requirements
are type parameters. The recursion of the stale package remover takes fuel, `none` meaning it does not end; the theorems show
enough fuel for lockfiles without cycles.
Disagreements: `freshAndLocked_cyclic` (no end for a cyclic lockfile), `freshAndLocked_changed` (a changed requirement
stays locked when an unchanged one needs it), `changes_missed` (a lockfile that differs in requirements only counts as
unchanged).

### Downloads, checksums, locks and ids (`Project`, `Locks`, `Uid`: C36 C41 C43 C53)

Modelled: `LocalPackages` and the end of `resolve_and_download_versions` as functions on a directory of package contents;
`Base16Checksum` with the external base16 crate; the commands' use of `BuildLock` as scripts run by any number of processes
in any interleaving, with failing locks, crashes and `gleam clean`; `UniqueIdGenerator` over arbitrary histories. File locks
are assumed exclusive per file (fslock), `fetch_add` atomic.
Disagreements: `download_git_to_hex`, `download_local_to_hex`, `download_stopped`, `lock_error_ignored` (`build.rs:62`,
`dependency_manager.rs:166` ignore a failed lock), `clean_breaks_locks`.

### Comments (`Comments`, C37)

Modelled: `parse/extra.rs:20-104`, all the functions that look comments up by position, and the standard library's
`binary_search_by` from its published source. `lastBetween_needs_last`: with another search allowed by the documentation of
`binary_search_by` (which promises any match) the code would be wrong.

### Numbers (`Numbers`, C38 C54)

Modelled: the Erlang and JavaScript code generated for integer expressions and guards as syntax trees with evaluators for both
targets. Functions are arbitrary state transformers that may crash, so evaluation order is part of the theorems. Doubles are
rationals; every JavaScript operation is the exact result rounded by an arbitrary function that rounds to a nearest double (shown
to exist). Infinities, NaN and the sign of zero are not modelled. Parentheses and statement hoisting in the generated JavaScript
are not modelled. Erlang operands are taken to be evaluated from left to right, as the BEAM compiler does.
Disagreements: `erlang_arithmetic_wrong` (`is_pure_value_constructor`, made for warnings, counts every operator and field access
as pure; `how_to_divide` uses it, so effects of a dividend are reordered or lost), `erlang_guard_wrong` (guards divide with
Erlang's operators, so dividing by zero makes the guard fail), `erlang_not_equal_wrong` (`!=` is printed as `/=`, `==` as `=:=`).

### Bit arrays on JavaScript (`BitArrays`, C55-C58)
Modelled: the whole-number part of the bit array runtime in `prelude.mjs`: constructor checks, `bitArrayByteAt`, `equals`, `bitArraySlice`,
`toBitArray` with its cursor and its unaligned loop (including the loop bound `Math.trunc(size + 7 / 8)`, a slip in the code that only adds
idle turns), `sizedInt` with its 32-bit and `BigInt` paths, `bitArraySliceToInt` with its five readers. The specification is a list of bits:
`bits`, `valueBig`/`valueLittle`, `bitsBig`/`bitsLittle`. `Number(bigint)` is a parameter that is exact on the integers a double can hold.
Not modelled: floats, UTF segments, `Uint8Array` views sharing memory.

### Equality on JavaScript (`Equality`, C39)
Modelled: `isEqual` as a loop over a stack, `===`, `instanceof`, and the choice between the three in generated code. Values have references and
a heap, so shared data is covered. Classes of one name have one list of fields.
Disagreement: with NaN (`inf -. inf`) a value can differ from itself and still be equal inside a shared list (`equality_with_nan`).

### File systems (`Files`, C18 C19)
Modelled: `InMemoryFileSystem` as a map from paths to entries, and `FileSystemProxy` with the notifications that reach it. Histories are
arbitrary, failing operations included; the specification `latest` looks only at the history. Modification times, directory listings and paths
that are not absolute are not modelled.
Disagreements: `failing_mkdir_changes` (directories are created from the innermost outwards, and those made before a file is met stay),
`write_over_directory`, `hardlink_without_parent`, `reset_removes_root`, `saved_document_not_shadowed` (saving ends the shadowing, not closing).

### Names in JavaScript (`JsNames`, C40)
Modelled: escaping, `Scope` with its counters and high water marks, `local_var`, `next_local_var`, and every way in which the generator enters
and leaves scopes. A program is reduced to its bindings, uses and nesting; JavaScript's scoping is modelled with hoisting, so that a use
before the declaration in its own block counts as an error. Not modelled: names of fields, of exported accessor functions and of imported
modules, and in which order the generator visits expressions (any order is covered).
Disagreements: `block_names_leak` (`Generator::block` does not restore the scope when the block is a statement; `let x = 1 { let x = 2 x } x`
prints the last `x` as `x$1`, which is not in scope), `guard_variable_redeclared` (the variables of a guard are declared without a block while
the scope is restored after them; only a guard at the root of a decision tree is put into a block, so `case p { #(n) if n -> 1 _ -> 2 }`
followed by `let n = 3` declares `n` twice), `assert_message_captured` (the message of a `let assert` is generated after the variables of the
pattern got their names).

### Unification (`Unify`, C23 C24 C25)
Modelled: `unify` with its equality shortcut, `unify_unbound_type` and `collapse_links`, over a heap of cells (`Arc<RefCell<TypeVar>>`).
Cells that are borrowed while links on the right are followed are tracked: writing to one panics, `try_borrow_mut` skips it.
Meaning is given by readings: finite trees for all cells that satisfy the links. `Acyclic` (well-foundedness of "refers to") is equivalent to
having a reading, and the reading is unique. Proved: what success and failure mean, that every run ends (by the number of unbound variables,
then the size of what the types stand for, then the length of the link chains), and that no cell is borrowed twice.
Not modelled: `inferred_variant`, publicity and package of named types, and the error values beyond success or failure. That unbound
variables have distinct ids (`UniqueIds`) is a hypothesis on the start and kept by every run. Creating variables and instantiation are not
events of the series.

### Call graph (`CallGraph`, C21)
Modelled: `CallGraphBuilder` for all forms of expressions, statements, patterns, guards and constants; forms that only go through their parts
are one constructor. The specification is the usual notion of a free name, with the scoping of the type checker. `tarjan_scc` of petgraph is a
contract (`Components`).
Disagreements: `references_missed` (an assertion's message is read with the pattern's names in scope; alternative patterns are not read; sizes
are read with the names of neighbouring patterns in scope) leads to definitions analysed before a constant they refer to, and
`reference_invented` (the name given to a string prefix is not defined) to groups that are not mutually recursive.
Selecting a constant of another module in a guard counts as a reference to a definition named like the module; excluded by `Plain`.

### Incremental builds (`Build`, C33 C34)
Modelled: `ModuleLoader::load`, `PackageLoader::run` with stale and removed modules, `PackageCompiler::compile`, and each change of the
build directory as one step, so that a build may stop after any number of steps. Parsing, type checking and code generation are parameters
(functions of a module's name, text and imported interfaces). The order is the model of `toposort_deps` from `DepTree`. The specification,
`Interface` and `Output`, speaks about sources only. Fingerprints are the texts (no collisions); a file is written in one step; sources do not
change during a build; modules of other packages do not change (the theorems are for one package).
`History` lists the conditions under which the claim is proved. Each of them is needed; the disagreements are
`change_not_seen` (a changed file whose modification time is not later), `code_of_undone_change` (build stopped between writing code and
metadata, then the change is undone), `removed_import_accepted` (remove a module, break its importer, build, undo the change of the importer:
the build accepts an import of a module that does not exist), `removed_import_accepted_after_cycle`, `removed_import_accepted_after_failure`,
`stopped_before_importer` (`gleam check`, change, `gleam build` stopped while writing metadata, `gleam check`), `stopped_between_deletions`
(the `.cache` file is deleted before the `.cache_meta` file; a stop in between can make all later builds fail),
`code_of_removed_module_left`, and `changed_dependency_forgotten` (path dependency compiled, root package fails to parse; the next
build does not recompile the importers of the changed dependency).

### Case expressions (`Case`, C28–C32)
Modelled: `Compiler::compile` with moving of unconditional patterns, choice of the pivot, splitting of the branches (`BranchSplitter`), string
prefixes, bit array tests, variant inference, guards, alternatives, and the diagnostics (missing, reachable, impossible). Patterns of the arena
that are changed in place carry the number of their cell. The tests of bit array segments and the relations between them are a parameter
(`BitSys`) with laws (`BitSys.Sound`). The specification gives values types, says what a pattern matches and binds, which clause is selected,
and how a decision tree is run. The printing of missing patterns is not modelled, only whether any are reported. `none` of `compile` is a panic
or a lack of fuel.
Proof: splitting keeps branches well formed (`SpWf`) and sound (`SpSound`) for the environment of a value; a value follows one path through a
switch (`Path`); induction on the fuel.
For C30 the invariant `SpExact` says that the first branch that matches is the first one of the list a value leads to. It needs a condition on
earlier and later branches (`NC`) that splitting keeps (`SpDer`). `Orderly` is that condition in terms of the source.
Disagreements (C30): `prefix_skips_clause`, `prefix_skips_clause_without_guard`, `shorter_prefix_skips_clause`, `spelling_skips_clause` (the
JavaScript code runs a later clause), `nested_prefix_name_lost`, `nested_segment_lost` (a variable of the body is not assigned).
C31: `reachable_clause_never_selected`. C29: `missing_pattern_without_values`.

### Bit array patterns (`Segments`, C59, C28–C31)
Modelled: `bit_array_to_tests` with sizes (constants, variables, calculations), offsets, read actions; the tests and the relations between them
(`equivalent_to`, `superset`, `interfering_bits`, `int_to_bits` and its helpers, `succeeds_if_succeeding`, `fails_if_failing`,
`fails_if_succeeding`, `is_impossible_segment`). What the tests compute (decision.rs) is stated on lists of bits (`Eval.lean`); the JavaScript
text is not modelled. Hash maps of variables are association lists with unique keys in a fixed order. Floats are given by a parameter (`World`).
Simplified: `native` is big endian, as in the code; codepoints have the fixed size the code gives them (64 bits). Integers are unbounded.
Specification: `matchSegments` reads a bit array by its segments, without tests; `firstMatch` says which clause of a `case` is selected.
Proof: the offset of a segment evaluates to the sum of the sizes before it; relations between tests are implications between their outcomes for
variables that are not negative (`Laws.lean`), so that the theorems of `Case` apply (`plainTests_sound`).
Disagreements: sizes that are sums with a negative variable (`negative_size_skips_clause`, `negative_size_runs_clause_that_does_not_match`),
the name of a literal whose test is dropped (`name_of_literal_lost`), `size({ 0 })` (`zero_size_reported_unreachable`), exhaustive bit array
patterns reported as missing (`bit_arrays_reported_missing`).

### JavaScript for decision trees (`JsCase`, C32)
Modelled: `javascript/decision.rs` for `case` and `let assert`: `switch`, `decision_guard`, the merging of conditions (`CaseBody`), variables for
values that are used twice and for character codes, `record_check_assignments`, `runtime_check`. Documents are statements and expressions with
a meaning of their own (`Spec.lean`): UTF-16 `slice`, `startsWith`, `charCodeAt`, `&&`. Made-up names are numbers (`JsNames` models names). Tests
and reads of bit arrays are one operation each; the variables for segments used by later segments are left out.
Proof: the expressions for the variables in scope have the values of the decision tree's variables (`St`); induction on the tree, saying of a
body what it does when its condition fails (`Works`).
From the source on: a compiled tree only uses variables in scope and introduces each once (`Static.lean`), and makes sense (`Proper`) for clauses
whose prefixes are `Clear` of each other: choices of a string switch may overlap, but if one ends like the fallback then so do the others
(`Apart.lean`, `Split.lean`, `Fine.lean`); with the theorem on trees (C30) the JavaScript runs the first clause that matches (`Whole.lean`).
Disagreements: `let_assert_nested_list_throws` (`let assert Ok([_, ..]) = r` always throws), `merged_conditions_bind_other_value`,
`merged_conditions_run_other_clause`, `renamed_true_is_negated`.

### Lexer (`Lexer`, C26 C27 C60 C61)
Modelled: `NewlineHandler`, `Lexer` with its window of two characters, all of `consume_normal` (names, keywords, numbers with bases and
exponents, strings with escapes, comments, operators, merge conflict markers), `check_for_minus`, the queue of pending tokens and the iterator.
A text is a list of characters; offsets are bytes of UTF-8. Panics of `BigInt::parse_bytes(...).expect(...)` are errors of the model.
Simplified: the characters an error has read are not tracked, so nothing is said about what follows the first error. Left-over arms of the code
that build error messages are one error kind each.
Specification (`Spec.lean`): the texts a token may stand for (`Reads`), how tokens and blanks make up a text (`Covers`), and what calls of
`next` give (`Yields`).
Proof: a lexer state is the view of a suffix of the text (`View`); every step reads a prefix of it (`Good`); induction on what remains.
Disagreements: `comment_span_ends_inside_a_character` (a file whose last line is a comment that ends in a character of several bytes; taking
the text of such a comment panics), `last_line_ending_is_cut`, `minus_belongs_to_number`.

### Erlang source text (`ErlText`, C62)
Modelled: `ErlangSourceBuilder` of `erlang-generation/src/lib.rs`: the stack of positions, `new_expression`, `new_pattern`,
`close_currently_open_item`, `pop_leftover_items`, the calls for functions, attributes, expressions and patterns, quoting of atoms, escaping of
documentation. Panics are `none`. Left out: types, specs and records. Floats come as the text `format_float` makes of them.
`Tree.lean`: the calls that build each term, in the order the comments of the trait `ErlangBuilder` and its callers in
`compiler-core/src/erlang.rs` and `erlang/pattern.rs` have them.
Specification: `Spec.lean` is a scanner and a parser for Erlang written from the grammar of `erl_scan.erl` and `erl_parse.yrl` (only constructs
that the generated code has; everything else is rejected), `Meaning.lean` says which syntax tree each term stands for. Matches are grouped to the
right, as Erlang does. `Ok.lean`: what is asked of names, strings and places. The lemma that a string literal accepted by the lexer of Gleam is
`wellQuoted` is not proved.
Proof: the calls of a term print `Term.text` (`Run*.lean`); the text is scanned as `Term.toks`, whatever follows it (`Lex*.lean`); the tokens are
read at every level of precedence (`Parse*.lean`); forms and modules (`Forms.lean`).
Disagreements: `negative_size_rejected` (a constant `-1` as the size of a segment prints `<<A:-1>>`), `quote_in_atom_rejected`
(`@external(erlang, "a'b", "f")`).

### Erlang code generation (`ErlGen`, C63)
Modelled (`Model.lean`, `Module.lean`): `FunctionGenerator` and `PatternGenerator` of `compiler-core/src/erlang.rs` and `erlang/pattern.rs` as
functions from typed syntax trees to calls of the builder of C62: variables and their numbering by place of definition, discards, patterns with
string prefixes and aliases, guards, operators with the shortcuts for division, concatenation, calls, pipelines, record updates and accesses,
constants, blocks and `begin`/`end`, `case` with alternatives, `let assert` with the rest of the body in its clause, `panic` and `todo`, exports.
Left out: floats, bit arrays, `assert`, `echo`, docs, types and specs, `@external` functions, the removal of unused functions, `Utf codepoint`s.
Constants are inlined as in the code. `purity` is a parameter. Places are numbers, different for different definitions.
Two languages, written apart from the generator: `Gleam.lean` (evaluator for source expressions: environments, closures, strict left to right) and
`Erlang.lean` (evaluator for the syntax trees that C62 reads: single assignment, variables that a subexpression exports, `case` clauses, guards in
which an error is failure, `erlang:error`). Calls are bounded by a depth that both count alike; functions of other modules are a parameter with
a state (`outside`). A Gleam program that has no meaning (a type error) is `stuck` and nothing is said of it; the generated code never is.
Specification (`Spec.lean`): which Erlang value, error and call stands for which of Gleam, and that outcomes are the same. Errors carry the kind,
the message and the line, those of `let assert` also the value and the places; the file, module and function names in them are not modelled.
`compiled_module_exports_partial`: the module has its name, and exports exactly the importable functions.
Conditions (`Scope.lean`): names as the lexer makes them, variables refer to their definitions, and the exclusions below.
Proof: `TreeLemmas.lean`: the calls build a syntax tree given by recursion. `Sim.lean`: environments are related (`Rel.lean`): every variable in
scope has its own Erlang name bound to a related value, and names not used yet are unbound; induction on expressions (`ExprSim*`, `LetSim`,
`AssertSim`, `BranchSim`), then on the depth (`ApplySim.lean`). `Print*.lean`: the tree satisfies the conditions of C62. `Props.lean` composes.
Disagreements: `braces_around_literal_fail` (`{ "a" } <> b` prints `<<"a"/binary, B/binary>>`), `alias_in_guard_fails` (a name for the literal of
a prefix, concatenated in a guard). Guards that divide by a variable and divisions whose operands are evaluated out of order are excluded; they are
shown to differ in `Numbers`.

### JavaScript code generation (`JsGen`, C64)
Modelled (`Model.lean`): `Generator` of `compiler-core/src/javascript/expression.rs` with `Position`, `Ordering`, `statement_level`, `Scope`,
`wrap_expression`, `wrap_block`, immediately invoked functions, blocks, pipelines, calls, calls of itself that become a loop, anonymous functions,
record updates; `decision.rs`: subjects, the three shapes of a decision tree (at the root a clause, no choice, choices), `inside_new_scope`, clauses
that return what they match, guards and the variables that are declared before them, `let` and `let assert`. Left out: floats, bit arrays, `echo`,
`assert`, imports and exports, types. The tree of `if`s of a `case` is one statement that runs the first clause that matches (what C32 is about); the printed form of names is that of C40
(`JsNames`): here a name is a text and a number. Numbers are integers without bounds.
JavaScript (`Js.lean`): an evaluator in which a block declares its `let`s when it is entered, each variable is a cell, reading a cell before its
`let` is a `ReferenceError`, functions capture cells. The meaning of Gleam is that of C63 (`ErlGen/Gleam.lean`).
Specification (`Spec.lean`): which values, errors and calls correspond.
Disagreements (`Witnesses.lean`): `expression_flattening_blocks` does not flush `statement_level`, so a block inside the expression of a clause is
lifted out of the `case` (`block_lifted_out_of_case`, `branch_not_taken_is_run`); a `case` whose first clause always matches, and a block with
several statements, leave their variables in scope when they are statements (`clause_variable_stays_in_scope`,
`block_variable_stays_in_scope`); the message of `let assert` is generated after the variables of the pattern are bound
(`assert_message_has_wrong_variable`).
Conditions (`Fragment.lean`, `okModule`, decidable): variables are in scope, parameters and the variables of a pattern have different names;
blocks and `case`s whose variables would stay in scope (`keeps`, `leaky`) are not where that matters, the body of a clause is a block or has nothing
that is lifted (`lifts`), the message of a `let assert` does not use names of the pattern (`okMessage`), a `case` whose first clause always matches
has a body of that kind and no guard with variables of its patterns, which would be declared outside of the tree (`okTree`; C40,
`guard_variable_redeclared`). The five programs above, and that one, are the ones these leave out.
Proof: `Grow.lean`, `Static.lean` (each name that is declared is new: numbers only grow), `Rel.lean`, `Values.lean` (values in a store, patterns),
`Steps.lean`, `SimDefs.lean` (what is simulated: outcomes, or "call yourself again with these values in the cells of the loop"), `PlaceSim.lean`,
`ExprSim.lean`, `LetSim.lean`, `StmtSim.lean`, `SameSim.lean`, `GuardSim.lean`, `CaseSim.lean`, `Sim.lean` (induction on the syntax), `ApplySim.lean` (induction on the
depth of calls, in which an iteration of a loop is a call in Gleam), `Props.lean`. A store only grows and a variable with a value keeps it, so
functions that captured it stay related.

### Type inference (`Infer`, C65-C69)
Modelled (`Model.lean`): `ExprTyper` of `compiler-core/src/type_/expression.rs` (variables, function literals with the types their context expects,
calls, operators, blocks, tuples, lists, field accesses, `case` with several subjects, alternatives and guards, `let`, `let assert`, `assert`,
`todo` and `panic`), `PatternTyper`, `Hydrator`, `instantiate`, `generalise`, `match_fun_type`, `named_type_arguments`, and of `analyse.rs` how
functions are registered, inferred group by group and generalised. Unification is that of C13 (`Unify`), on the same heap. Left out: labelled
arguments, pipes, `use`, externals, constants, bit arrays, record updates, `echo`, imports and the narrowing of variants (a field is accessible
if all variants have it). What is simplified is listed at the head of `Model.lean`. An error ends the inference; the arguments of a function
literal that is called at once are inferred twice as in the code, where an error of the first time counts too.
The meaning (`Run.lean`) is an evaluator in which an operation on a value of the wrong kind is `wrong`, apart from panics, cases without a
matching clause (C10) and calls deeper than a bound. Floats are bits and their operations a parameter.
Specification (`Spec.lean`): which values are of which type.
Disagreements (`Witness.lean`): the checker accepts three programs that go wrong. `instantiate` replaces every generic variable that is not
rigid, also in the types of local variables and of the functions of the group that is being inferred. A variable written in an annotation is rigid
only until the end of the scope it was written in, and only in the function in whose head it is. Unification can give such a variable to a
parameter of unknown type, which then has another type at each use.
Proved (`Props.lean`, `accepted_modules_are_safe_partial`): modules whose type variables are written where this cannot happen (`soundGroup` in
`Fragment.lean`: annotations in a body use only variables of the head of the function; functions that call each other have no type variables in
their heads or complete annotations) do not go wrong if they are accepted. Each inference step refines what the heap means by an assignment that
invents no generic variables but the rigid ones (`Steps.lean`, `Instances.lean`, `PatternSound.lean`, `ExprSound.lean`), so that a derivation in
the typing rules (`Typing.lean`) stays one (`Subst.lean`); at the end of a group the derivations hold for all instances of the schemes
(`GroupSound.lean`); typed programs are safe (`Safety.lean`). `Module.Proper` is assumed: custom types and constructors have different names, also
from the prelude's, and fields only mention the parameters of their type. Function values as arguments are covered inside a module, but not as
arguments from outside (`AllData`): what they do is not part of the module.
Annotations (C66, `AnnotationSpec.lean`, `Keeps.lean`, `AnnotationProps.lean`): the specification is a relation between an annotation and a
type, given types for the type variables. Generic cells are never changed by unification, so what the head of a function says when it is
registered is still what it says after its whole group is inferred; different variables have different generic ids, which generalisation keeps apart.
No condition on the module is needed.
Principal types (C67, C68, `PrincipalSpec.lean`, `Best*.lean`, `BareTyped.lean`, `PrincipalProps.lean`): for modules without annotations.
`Module.HasTypes` says which types the functions of a module can be given, with the typing rules of `Typing.lean`: inside a group a function has one
type, later functions use any type of a set of typings of the group. A `Best` step keeps a solution: an assignment of types to the unbound
variables under which what inference has found are the types of the typing. So the typing is an instance of what is generalised; and since each
unification has a solution it does not fail. Not so for `x.field` and `x.0`, for which the type of `x` has to be known: `unbox(b) { b.content }` has a
typing and is rejected.
Termination (C69, `Local.lean`, `Ends.lean`, `EndsExpr.lean`, `EndsProps.lean`): the fuel of the model bounds following links and going into types.
`Total` says that for all large enough fuels the outcome is the same, and not the one for running out of fuel (which also stands for panics). It
holds of every step in states where the heap has a meaning, the variables from `next` on are untouched, and nothing refers to them. With C67 and C68 it
follows that a module without annotations, fields and indices is accepted exactly if it can be given types.

### Printed types (`TypeText`, C70)
Modelled: `type_/printer.rs` (`Names`, `Printer`; not `print_constructor`, and alias expansion only for the name), the parts of `analyse.rs`,
`analyse/imports.rs` and `environment.rs` that keep the names of types, modules and type variables, `parse_type`, `type_from_ast`, and the lexer
model of C26. A module is a list of imports, custom types and type aliases; the modules before it were analysed in the same way (`Analysed`), so
what is known of them is proved and not assumed. Simplified: unbound and generic variables are one kind; the publicity and package of a named type
are functions of its name; the order in which hash maps give aliases is any list.
`Spec.lean` has what a reader needs: types without links, when a name stands for a type, when a type has a name in a module (`Nameable`), and when a
type is read again (`IsRead`). Proof: `Lex.lean` and `Parse.lean` follow the text of a type, `Hydrate.lean` the names in it, `Print.lean` the names
for variables, `Scope.lean` the invariant of the declarations, `Name.lean` that what is written stands for the type.
Not so (`Witnesses.lean`): a type of a module that is not imported is printed with the last part of the module's name and may be read as a type of
another module; an internal type with a public name is printed by it also where only its own module is imported; the 45th made-up name is the keyword
`as`; two uses of an annotated function get the same variable names; a printer of a code action that is not told of a name gives it again. The
theorem excludes these, and importing types of the prelude by name.

### Unused definitions and imports (`Unused`, C71 C72)

Modelled: `ReferenceTracker` of `reference.rs` (the graph, the bidirectional map of entities and nodes with what an insertion
overwrites, shadowed entities, `unused` with both ways of marking), the calls of it for imports (`analyse/imports.rs`), types,
constructors, functions and constants (`analyse.rs`), in their order, and the positions that `handle_unused`
(`type_/environment.rs`) hands to the code generators.

The specification (`Spec.lean`) is a list of definitions, what each name stands for at each point, and which definition uses
which. It has no nodes, no shadowed entities and no marking.

- `definition_is_unused_iff`, `code_is_left_out_iff`: a definition is reported, and its code is left out, if and only if no
  public definition reaches it. For every order of the hash maps.
- `reported_is_not_needed`: also for imports.
- `unneeded_import_is_reported`: for types and values that are imported by name, also if a definition hides them.
- `unreferenced_module_is_reported`: a module, or its alias, that no definition and no imported item uses is reported.
- `referenced_module_is_not_reported_partial`: a module that any definition refers to is not reported, if nothing with the name
  of that definition is mentioned from a module with that name.

False without that condition (`Witnesses.lean`):

- `module_in_use_is_reported`: `import list` and a private `fn map() { list.map }`. The compiler says that the import is unused,
  and the module does not compile without it. The test for "appears in the import list" looks for any mention of
  `list.map`.
- `nested_module_is_not_reported`: the same test compares the local name of a module with full names, so that for a module with
  a slash in its name it never holds.
- `shadowed_twice_is_not_reported`: entities that are hidden are kept by name, so that one can overwrite another. The theorems
  show that this only loses imports of modules.

Hypotheses (`Program.Ok`): names are defined once, as the compiler demands, and the body of a function comes after its head.
For `code_is_left_out_iff`, the definitions are at different places.

Not modelled: which references an expression has (`type_/expression.rs`, `pattern.rs` and `hydrator.rs` call the tracker), local
variables, and that warnings for items of an unused module are merged.

### Pipelines, `use`, captures and record updates (`Sugar`, C73)

Modelled: `make_call` of `parse.rs` (captures), `type_/pipe.rs`, `infer_use` with `UseAssignments` and `infer_record_update` of
`type_/expression.rs`, from programs as they are written (`Syntax.lean`) to the typed programs of `ErlGen/Syntax.lean`.

The specification is an evaluator for programs as they are written (`Meaning.lean`), from the tour of the language, and when two
outcomes are the same (`Spec.lean`). That the evaluator says what it should is also shown by laws: `a |> f(b)` is `f(a, b)`
(`pipe_is_first_argument`), or `f(b)(a)` (`pipe_into_result`), `a |> f` is `f(a)` (`pipe_into_function`), and `|>` is left
associative (`pipe_assoc`).

- `notations_keep_meaning_partial`: same values, same failures, same calls of other modules in the same order; for all modules,
  functions, values, depths of calls and answers of other modules.
- `notations_keep_functions_partial`: the same for functions as values.
- `notations_compiled_to_erlang_partial`: with C63, from programs as they are written to the Erlang code that is read
  from the generated text.
- `use_is_last_argument`: with variables as its patterns, a `use` gives the same typed program as the call with an anonymous
  function.

Hypotheses (`Fun.ok`): names of variables do not start with an underscore (the lexer's, and needed: the compiler makes up `_pipe`, `_use0`,
`_capture` and `_record`), the labels of an update are given once and are labels of fields, and the patterns of a
`use` have different variables. The type checker does not demand the last one: `use x, #(x, _) <- f` is accepted, and `x` is then that
of the last pattern that is not a variable (`repeated_names_in_use`, `repeated_names_change_meaning`).

Not modelled: types. The number of parameters of a function that is piped into (`pipe.rs` asks its type) is part of the
program, and that a record update is of the variant that its record has. Left out of the programs: labels of arguments (C09), constants,
guards and alternatives, `let assert`, `assert`, `echo`, floats, bit arrays, messages of `todo` and `panic`. That is why the
theorems are called partial.

### Numbers and patterns that are formatted (`Format`, C74 and C75)

Modelled: `int`, `float` and `underscore_integer_string` of `format/src/lib.rs`; `pattern`, `list_pattern`,
`pattern_constructor`, `pattern_call_arg`, `string`, `wrap_arguments` and `wrap_arguments_with_spread` of it, as documents of
`Pretty`; and `parse_pattern`, `expect_constructor_pattern` and `series_of` of `parse.rs`, on the tokens of `Lexer`.

The specification of numbers (`Spec.lean`) says which number a text of digits denotes and how digits are grouped. That of patterns
(`PatternSpec.lean`) says which patterns can be written, what the formatter changes (`normal`), and which values a pattern
matches with which variables.

- `formatted_int_is_same`, `formatted_int_is_lexed`, `formatted_int_layout`: the formatted text is a token with the same value,
  it is formatted as it is, and digits from the fifth on are in groups of three.
- `formatted_float_is_same_partial`: the same number, for floats with no underscore before the zeros at the end.
- `formatted_float_is_rejected`: `1.5_0` is a float, and is formatted as `1.5_`, which the lexer rejects.
- `written_pattern_is_read`, `formatted_pattern_is_read_partial`: for every text that is read as a pattern, every length of a line and
  every width of characters, the formatted pattern is read as its normal form, and the token after it is left.
- `formatted_pattern_matches_the_same_partial`: it matches the same values and binds the same variables. If some list pattern is
  only a tail it may match more values, none of them of the type of the pattern.
- `formatting_a_pattern_again_is_same_partial`: formatting again changes nothing, if no list pattern is only a tail.
- `bare_tail_is_changed`: `[..]` becomes `_`, so that what had to be a list need not be one; `[..] as x` becomes `_ as x`, and, formatted
  again, `x`.

Simplified: what the parser does about elements after the tail of a list, which is an error in any case; errors are failures
only. The parser has fuel for every text that the formatter writes.

Not modelled: comments between the parts of a pattern, bit array patterns, and the rest of the formatter. What a literal string or
float stands for, and which fields arguments with labels are for, are parameters of the specification.

### Type annotations that are formatted (`Format/Annotation*`, C76)

Modelled: `type_ast_constructor`, `type_ast` and `type_arguments` of `format/src/lib.rs`. The parser and what an annotation stands
for in a scope are `parseType` and `typeFromAst` of `TypeText`.

- `written_annotation_is_read`, `formatted_annotation_is_read`: for every text that is read as an annotation, every length of a line and
  every width of characters, the formatted annotation is read as the same annotation, and the token after it is left. The
  only difference is that `Foo()` becomes `Foo`. An annotation in which the name of a type is missing (`wibble.`) is included.
- `formatted_annotation_is_the_same_type`: in each scope in which the annotation stands for a type, the formatted one stands for the same
  type, with the same type variables.
- `formatting_an_annotation_again_is_same`: formatting again changes nothing.
- `empty_parentheses_are_dropped`: `Int()` is an error, and its formatted text `Int` is not. So formatting can make a wrong annotation
  right, but it changes none that is right.

Not modelled: comments between the parts of an annotation.

### Imports that are formatted (`Format/Import*`, C77)

Modelled: `sorted_import_group`, `unqualified_import` and the import case of `definition` of `format/src/lib.rs`; `parse_import` and
`parse_unqualified_imports` of `parse.rs`.

The specification (`ImportSpec.lean`) says by which name a module and what is imported from it are used, and when a list is another one sorted
by names.

- `written_imports_are_read`: for all imports that can be written, every length of a line and every width of characters, the
  formatted imports are read again up to the keyword of the next definition.
- `formatted_imports_import_the_same`: for every text with imports, what is read after formatting imports the same modules, types and
  values, used by the same names; modules, types and values are in the order of their names, and what has the same name keeps its order.
- `formatting_imports_again_is_same`: formatting again changes nothing.

Not modelled: comments and empty lines, which divide the imports of a file into groups that are sorted one by one; `@target`.

### Definitions of types that are formatted (`Format/TypeDef*`, C78)

Modelled: `format/src/lib.rs` `custom_type`, `type_alias` and `record_constructor`; `parse.rs` `parse_custom_type`,
`expect_type_name`, `parse_record_constructor`, `parse_record_constructor_arguments`, `parse_record_constructor_field` and the
arms of `parse_definition` for types. Annotations are those of C76. Whether there is an empty line before a constructor is a
parameter of the formatter; the theorems are for all values of it.

A constructor may be deprecated (the attributes are those of C79). Not modelled: comments and documentation; attributes before
the definition are in C79. Errors are a failure without a message. What follows the definition is a keyword, as at the start of
another definition.

Proved: each definition that is read from a text is written as a text that is read as the same definition, with the same
publicity, opacity, names, parameters, constructors, deprecations and labels; the annotations are those of C76 (`Foo()` becomes
`Foo`). Formatting again changes nothing. `attribute_without_constructor_is_dropped`: the parser accepts `@deprecated` before the
closing brace, where it means nothing, and the formatter drops it.

### Attributes that are formatted (`Format/Attribute*`, `Format/Definition*`, C79)

Modelled: `format/src/lib.rs` `AttributesPrinter` and the part of `targeted_definition` that writes `@target`; `parse.rs`
`parse_attributes`, `parse_attribute` and the functions for each attribute, `publicity`, and the end of `parse_definition`,
which refuses `@external` on an alias. The definition after the attributes is that of C78.

In the code the attributes are the first part of the chain of `append` that writes the definition; the model appends the
document of C78 to them. The parts and their order are the same. Constants are in C81. Not modelled: the
warning for `@target(js)` and `@target(erl)`.

Proved: each definition of a type with attributes that is read from a text, in whatever order its attributes are, is written as
a text that is read with the same target, message of deprecation, externals and publicity, and the same definition. Formatting
again changes nothing.

### Signatures of functions that are formatted (`Format/Function*`, C80)

Modelled: `format/src/lib.rs` `statement_fn`, `fn_arg` and `argument_names`; `parse.rs` `parse_function` up to the body,
`parse_fn_param` and `parse_type_annotation`. Attributes are those of C79, annotations those of C76.

The body is any document (or none, for an external function) of which each layout is read as tokens (`Spec.BodyReads`); the
theorems say that the tokens of the body are what is left after the signature, between braces. Not modelled: the body itself,
comments and documentation.

Proved: each signature that is read from a text is written, with any such body, as a text that is read with the same attributes,
publicity, name, labels, names and annotations (`Foo()` becomes `Foo`, as in C76). Formatting again changes nothing.

### Files that are formatted (`Format/Constant*`, `Format/File*`, C81)

Modelled: `format/src/lib.rs` `module`, the constants of `definition`, and `const_expr` for integers, strings, names and
constructors without arguments; `parse.rs` `parse_module` (with `ensure_no_errors_or_remaining_input`: no token may be left),
`parse_module_const` and `parse_const_value` for these values. A file has one group of imports and after it definitions of types
(C78, C79), constants, and functions (C80). How bodies are written and read is a parameter (`BodyFormat`), of which is assumed that
it keeps bodies (`Spec.KeepsBodies`). `simple_bodies_are_kept` proves this for bodies that are one integer, string, name or
constructor, so that for such functions, and those without a body, nothing is assumed
(`formatted_simple_file_declares_the_same`). Not modelled: other values of constants (floats, tuples, lists, bit arrays, records
with arguments, operators), other bodies, imports after other definitions or in many groups, comments and documentation.

Proved: a file that is read from a text is written as a text that is read, to its end, as a file that imports the same
(`Spec.SameImports` of C77) and declares the same in the same order (`Spec.SameDeclaration`: an integer is the same number).
Formatting again changes nothing.

### Statements that are formatted (`Format/Expression*`, `Format/Statement*`, C82)

Modelled: `format/src/lib.rs` `statements`, `statement`, `assignment`, `assert`, `assigned_value` with
`case_clause_value`, `expr`, `call`, `append_inlinable_wrapped_arguments` and `wrap_function_call_arguments`; `parse.rs`
`parse_statement_sequence`, `parse_statement`, `parse_assignment`, `parse_assert`, `parse_expression_unit` and
`parse_fn_arguments`. Expressions are integers, strings, names, constructors, fields of a name (or names of a module), and calls of
those with any such expressions as arguments; a `let` has a name or an ignored name, with or without an annotation.
The parser of the model fails if something else than a statement or the end of the body follows an expression (operators, calls
and fields of other expressions, labels and messages are not modelled). Empty lines between statements are a
parameter, which is the same for each function. Not modelled: other expressions and patterns, `use`, bodies with no statement, comments.

Proved: bodies of such statements are kept (`statement_bodies_are_kept`, the assumption of C81), so that a file is written as a
text that is read as the same file, with the same statements (`Spec.SameStatement`) in its functions.
