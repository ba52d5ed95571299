{
 "claims": [
  {
   "property": "C01",
   "status": "proved",
   "theorems": [
    "Verif.Version.cmp_spec",
    "Verif.Version.cmp_total_order",
    "Verif.Version.cmp_eq_is_not_eq"
   ],
   "note": "Comparison equals semver precedence and is a total preorder. The derived Eq also compares build metadata, so Eq and Ord disagree (witness)."
  },
  {
   "property": "C02",
   "status": "proved",
   "theorems": [
    "Verif.Version.parse_print_roundtrip"
   ],
   "note": ""
  },
  {
   "property": "C03",
   "status": "partial",
   "theorems": [
    "Verif.Version.reads_back_iff",
    "Verif.Version.parse_readable",
    "Verif.Version.semver_reads_back_partial",
    "Verif.Version.semver_version_rejected"
   ],
   "note": "False of the code for identifiers whose words start with or/and, contain empty words (a--b) or zero-padded numbers; exact domain proved."
  },
  {
   "property": "C04",
   "status": "partial",
   "theorems": [
    "Verif.Version.requirement_semantics_partial",
    "Verif.Version.gt_excludes_release",
    "Verif.Version.build_in_requirement_rejected"
   ],
   "note": "Exact unless a pre-release meets !=, > or <=, where the code is wrong (witnesses)."
  },
  {
   "property": "C05",
   "status": "partial",
   "theorems": [
    "Verif.Version.lowest_version_bounded_partial",
    "Verif.Version.lowest_version_partial",
    "Verif.Version.lowest_version_not_member"
   ],
   "note": "Exact when every alternative has a lower limit; false otherwise (witness)."
  },
  {
   "property": "C06",
   "status": "partial",
   "theorems": [
    "Verif.Etf.write_decode_roundtrip_partial",
    "Verif.Etf.write_many_decode",
    "Verif.Etf.write_injective",
    "Verif.Etf.usize_roundtrip",
    "Verif.Etf.usize_wraps",
    "Verif.Etf.bigint_truncated",
    "Verif.Etf.atom_truncated",
    "Verif.Etf.largeBig_roundtrip"
   ],
   "note": "Holds for terms whose atoms are shorter than 65536 bytes, big integers of at most 255 bytes and usize below 2^31; false beyond (witnesses)."
  },
  {
   "property": "C07",
   "status": "proved",
   "theorems": [
    "Verif.SrcSpan.lineNumber_spec",
    "Verif.SrcSpan.utf8_line_column_spec",
    "Verif.SrcSpan.utf16_line_column_spec"
   ],
   "note": "Byte offsets to line/column. The UTF-8 column is 0-based in the code although the struct is documented as 1-indexed; the theorem states what the code does."
  },
  {
   "property": "C08",
   "status": "proved",
   "theorems": [
    "Verif.SrcSpan.byteIndex_roundtrip",
    "Verif.SrcSpan.byteIndex_spec"
   ],
   "note": "Editor position to byte offset and back."
  },
  {
   "property": "C09",
   "status": "proved",
   "theorems": [
    "Verif.Fields.reorder_places_arguments",
    "Verif.Fields.reorder_ok_iff"
   ],
   "note": ""
  },
  {
   "property": "C10",
   "status": "proved",
   "theorems": [
    "Verif.Fields.build_errors_iff",
    "Verif.Fields.reorder_outcome",
    "Verif.Fields.missing_labels_complete"
   ],
   "note": ""
  },
  {
   "property": "C11",
   "status": "proved",
   "theorems": [
    "Verif.Strings.utf16_decodes",
    "Verif.Strings.utf32_decodes",
    "Verif.Strings.utf16_length",
    "Verif.Strings.utf32_length",
    "Verif.Strings.utf16_prefix"
   ],
   "note": ""
  },
  {
   "property": "C12",
   "status": "partial",
   "theorems": [
    "Verif.Strings.check_name_case_iff",
    "Verif.Strings.suggested_lower_valid",
    "Verif.Strings.suggested_discard_valid",
    "Verif.Strings.suggested_upper_valid_partial",
    "Verif.Strings.suggested_upper_invalid",
    "Verif.Strings.snake_case_idempotent",
    "Verif.Strings.suggested_lower_not_keyword"
   ],
   "note": "Lower-case and discard suggestions are always valid; an upper-case suggestion is valid iff the name has no double underscore (witness My__type)."
  },
  {
   "property": "C13",
   "status": "proved",
   "theorems": [
    "Verif.Operators.parse_expression_grouped",
    "Verif.Operators.parse_expression_trailing",
    "Verif.Operators.parse_constant_grouped",
    "Verif.Operators.parse_bit_size_grouped",
    "Verif.Operators.parse_guard_grouped",
    "Verif.Operators.parse_guard_complete",
    "Verif.Operators.guard_priorities_agree"
   ],
   "note": "Operands of expressions and constants are opaque; guards are modelled with negation and nested blocks."
  },
  {
   "property": "C14",
   "status": "proved",
   "theorems": [
    "Verif.Pretty.print_is_layout",
    "Verif.Pretty.print_content"
   ],
   "note": ""
  },
  {
   "property": "C15",
   "status": "proved",
   "theorems": [
    "Verif.Pretty.group_unbroken_iff",
    "Verif.Pretty.unbroken_group_within_limit",
    "Verif.Pretty.fitting_document_on_one_line",
    "Verif.Pretty.flex_break_iff"
   ],
   "note": "Stated for documents without NextBreakFits(Enabled), which asks for the opposite."
  },
  {
   "property": "C16",
   "status": "proved",
   "theorems": [
    "Verif.Pretty.join_laws",
    "Verif.Pretty.append_laws",
    "Verif.Pretty.concat_law",
    "Verif.Pretty.join_law",
    "Verif.Pretty.group_nest_laws",
    "Verif.Pretty.print_continues"
   ],
   "note": ""
  },
  {
   "property": "C17",
   "status": "partial",
   "theorems": [
    "Verif.Pretty.declared_widths_partial",
    "Verif.Pretty.declared_widths_wrong",
    "Verif.Pretty.const_texts_printable"
   ],
   "note": "251 of 256 constants are right; five declare too small a width (theorem)."
  },
  {
   "property": "C18",
   "status": "partial",
   "theorems": [
    "Verif.Files.read_gives_latest",
    "Verif.Files.deletion_exact",
    "Verif.Files.tree_partial",
    "Verif.Files.failure_partial",
    "Verif.Files.failing_mkdir_changes",
    "Verif.Files.write_over_directory",
    "Verif.Files.hardlink_without_parent",
    "Verif.Files.reset_removes_root"
   ],
   "note": "Contents and deletion for all histories. The tree shape for careful histories, failures for all operations except making directories below a file; false otherwise (theorems)."
  },
  {
   "property": "C19",
   "status": "partial",
   "theorems": [
    "Verif.Files.reading_exact",
    "Verif.Files.reading_partial",
    "Verif.Files.saved_document_not_shadowed"
   ],
   "note": "Exact for all histories with the unsaved text; with the shown text while only the editor writes open documents, false otherwise (theorem)."
  },
  {
   "property": "C20",
   "status": "proved",
   "theorems": [
    "Verif.DepTree.toposortDeps_correct",
    "Verif.DepTree.toposortDeps_ordered_iff",
    "Verif.DepTree.convertCycle_correct"
   ],
   "note": "petgraph's toposort is modelled from its published algorithm."
  },
  {
   "property": "C21",
   "status": "partial",
   "theorems": [
    "Verif.CallGraph.dependency_order_partial",
    "Verif.CallGraph.duplicates_refused",
    "Verif.CallGraph.references_missed",
    "Verif.CallGraph.reference_invented"
   ],
   "note": "For modules whose patterns do not hide module level names from sizes and messages; false otherwise (theorems). The component algorithm of the graph library is a contract."
  },
  {
   "property": "C22",
   "status": "partial",
   "theorems": [
    "Verif.Project.freshAndLocked_partial",
    "Verif.Project.freshAndLocked_changed",
    "Verif.Project.freshAndLocked_cyclic"
   ],
   "note": "Exact for acyclic lockfiles; does not end for cyclic ones, and a changed requirement stays locked when an unchanged one needs it (theorems)."
  },
  {
   "property": "C23",
   "status": "proved",
   "theorems": [
    "Verif.Unify.unify_makes_equal",
    "Verif.Unify.earlier_substitutions_kept"
   ],
   "note": "For every acyclic heap of variables and all types, with links, unbound and generic variables."
  },
  {
   "property": "C24",
   "status": "proved",
   "theorems": [
    "Verif.Unify.no_infinite_types"
   ],
   "note": "For every series of unifications, failing ones included."
  },
  {
   "property": "C25",
   "status": "proved",
   "theorems": [
    "Verif.Unify.unify_complete",
    "Verif.Unify.unify_decides"
   ],
   "note": "Termination, success and most general result; generic variables stand for themselves."
  },
  {
   "property": "C26",
   "status": "partial",
   "theorems": [
    "Verif.Lexer.tokens_cover_the_text",
    "Verif.Lexer.spans_are_in_order",
    "Verif.Lexer.spans_are_within_the_text",
    "Verif.Lexer.span_of_token_is_its_text",
    "Verif.Lexer.span_of_every_token_is_its_text_partial",
    "Verif.Lexer.comment_span_ends_inside_a_character",
    "Verif.Lexer.last_line_ending_is_cut"
   ],
   "note": "Proved for all texts and all tokens but comments and line endings at the end of the text, for which it is false (theorems): the end of the text is reported one byte after the start of the last character."
  },
  {
   "property": "C27",
   "status": "proved",
   "theorems": [
    "Verif.Lexer.reading_tokens_ends"
   ],
   "note": "All texts. What the iterator gives after its first error is not modelled."
  },
  {
   "property": "C28",
   "status": "proved",
   "theorems": [
    "Verif.Case.accepted_case_never_falls_through",
    "Verif.Segments.accepted_bit_array_case_never_falls_through"
   ],
   "note": "For all pattern matrices, values and guards. The tests of bit arrays are a parameter with laws; the second theorem discharges the laws for the actual tests of patterns on a bit array whose sizes use no negative variables."
  },
  {
   "property": "C29",
   "status": "partial",
   "theorems": [
    "Verif.Case.missing_pattern_without_values",
    "Verif.Segments.bit_arrays_reported_missing"
   ],
   "note": "False in general: a type without values, and bit arrays (theorems)."
  },
  {
   "property": "C30",
   "status": "partial",
   "theorems": [
    "Verif.Case.tree_runs_first_matching_clause_partial",
    "Verif.Case.tree_runs_matching_clause_partial",
    "Verif.Case.prefix_skips_clause",
    "Verif.Case.prefix_skips_clause_without_guard",
    "Verif.Case.shorter_prefix_skips_clause",
    "Verif.Case.spelling_skips_clause",
    "Verif.Case.nested_prefix_name_lost",
    "Verif.Case.nested_segment_lost",
    "Verif.Segments.bit_array_tree_runs_first_match_partial",
    "Verif.Segments.negative_size_skips_clause",
    "Verif.Segments.negative_size_runs_clause_that_does_not_match",
    "Verif.Segments.name_of_literal_lost"
   ],
   "note": "For orderly clauses (prefixes, named prefixes in other patterns and spellings that do not get in the way of each other) the tree runs exactly the first clause that matches, with its variables. For all clauses the one that is run matches; that it is the first one and has all its variables is false in general (theorems). For patterns on a bit array the same is proved with the actual tests, for sizes without negative variables; with negative variables even a clause that does not match can be run (theorem)."
  },
  {
   "property": "C31",
   "status": "partial",
   "theorems": [
    "Verif.Case.unreachable_clause_never_selected_partial",
    "Verif.Case.unreachable_clause_never_runs",
    "Verif.Case.impossible_alternative_never_matches",
    "Verif.Case.tree_runs_matching_clause_partial",
    "Verif.Case.reachable_clause_never_selected",
    "Verif.Segments.unreachable_bit_array_clause_never_selected_partial",
    "Verif.Segments.zero_size_reported_unreachable"
   ],
   "note": "A clause reported unreachable is never run by the tree. False for a literal of size({ 0 }) (theorem). The second half is false in general (theorem)."
  },
  {
   "property": "C32",
   "status": "partial",
   "theorems": [
    "Verif.JsCase.javascript_agrees_with_tree_partial",
    "Verif.JsCase.javascript_runs_first_matching_clause_partial",
    "Verif.JsCase.let_assert_nested_list_throws",
    "Verif.JsCase.merged_conditions_bind_other_value",
    "Verif.JsCase.merged_conditions_run_other_clause",
    "Verif.JsCase.renamed_true_is_negated"
   ],
   "note": "Proved for trees where checks of a switch that succeed at once agree and values have the parts taken from them; and from the source on, for orderly clauses whose overlapping string prefixes are settled, and let asserts that bind a variable. False in general (theorems): overlapping string prefixes with merged conditions, let assert with a nested non-empty list, True imported under another name."
  },
  {
   "property": "C33",
   "status": "partial",
   "theorems": [
    "Verif.Build.incremental_correct_partial",
    "Verif.Build.incremental_complete_partial",
    "Verif.Build.like_clean_build_partial",
    "Verif.Build.whole_kept",
    "Verif.Build.not_always_like_clean",
    "Verif.Build.change_not_seen",
    "Verif.Build.removed_import_accepted",
    "Verif.Build.removed_import_accepted_after_cycle",
    "Verif.Build.removed_import_accepted_after_failure",
    "Verif.Build.code_of_removed_module_left",
    "Verif.Build.changed_dependency_forgotten"
   ],
   "note": "For the histories of one package described by History (failing builds included); false for the others (theorems with concrete histories). Several packages: only the counterexample."
  },
  {
   "property": "C34",
   "status": "partial",
   "theorems": [
    "Verif.Build.incremental_correct_partial",
    "Verif.Build.incremental_complete_partial",
    "Verif.Build.like_clean_build_partial",
    "Verif.Build.whole_kept",
    "Verif.Build.code_of_undone_change",
    "Verif.Build.stopped_before_importer",
    "Verif.Build.stopped_between_deletions"
   ],
   "note": "Every point at which a build may stop is covered, if afterwards no text recorded in the build directory comes back, modules are not removed at the wrong time and code is not missing; false otherwise (theorems)."
  },
  {
   "property": "C35",
   "status": "proved",
   "theorems": [
    "Verif.Project.retainProduction_correct",
    "Verif.Project.retainProduction_perm"
   ],
   "note": ""
  },
  {
   "property": "C36",
   "status": "partial",
   "theorems": [
    "Verif.Locks.no_deadlock",
    "Verif.Locks.mutual_exclusion_partial",
    "Verif.Locks.lock_error_ignored",
    "Verif.Locks.clean_breaks_locks",
    "Verif.Locks.path_injective",
    "Verif.Locks.deletion_uses_all"
   ],
   "note": "No deadlock in all cases. Mutual exclusion while locking does not fail and gleam clean is not run; false otherwise (theorems)."
  },
  {
   "property": "C37",
   "status": "proved",
   "theorems": [
    "Verif.Comments.firstBetween_correct",
    "Verif.Comments.isWithin_correct",
    "Verif.Comments.lastBetween_correct",
    "Verif.Comments.lastBetween_any_search",
    "Verif.Comments.lastBetween_needs_last",
    "Verif.Comments.binarySearch_isSearch"
   ],
   "note": "For comments in source order, as the lexer produces them; std's binary search is modelled from its published source."
  },
  {
   "property": "C38",
   "status": "partial",
   "theorems": [
    "Verif.Numbers.javascript_arithmetic",
    "Verif.Numbers.javascript_guard",
    "Verif.Numbers.erlang_arithmetic_partial",
    "Verif.Numbers.erlang_arithmetic_wrong",
    "Verif.Numbers.erlang_guard_partial",
    "Verif.Numbers.erlang_guard_wrong",
    "Verif.Numbers.targets_agree_partial"
   ],
   "note": "JavaScript: proved for all safe integers, with any rounding to nearest. Erlang: proved unless a dividend that is an operator or field access calls an impure function, and in guards unless something is divided by zero; false in those cases (theorems)."
  },
  {
   "property": "C39",
   "status": "partial",
   "theorems": [
    "Verif.Equality.equality_structural_partial",
    "Verif.Equality.operators_structural_partial",
    "Verif.Equality.same_equivalence",
    "Verif.Equality.equality_with_nan"
   ],
   "note": "Proved for all values without NaN, with any sharing; with NaN the result depends on sharing (theorem). Foreign objects (dates, maps, sets) are not modelled."
  },
  {
   "property": "C40",
   "status": "partial",
   "theorems": [
    "Verif.JsNames.names_legal",
    "Verif.JsNames.names_distinct",
    "Verif.JsNames.no_redeclaration_partial",
    "Verif.JsNames.uses_keep_meaning_partial",
    "Verif.JsNames.block_names_leak",
    "Verif.JsNames.guard_variable_redeclared",
    "Verif.JsNames.assert_message_captured"
   ],
   "note": "Legality and distinctness of names in all cases. No redeclaration, and every use means the right variable, unless a block is a statement with statements after it, the variables of a guard are declared without a block in front of more declarations, or the message of a let assert uses a name its pattern binds; false in each of these cases (three theorems)."
  },
  {
   "property": "C41",
   "status": "proved",
   "theorems": [
    "Verif.Project.checksum_roundtrip"
   ],
   "note": "The external base16 crate is modelled from its documentation."
  },
  {
   "property": "C42",
   "status": "partial",
   "theorems": [
    "Verif.Project.changesBetween_partial",
    "Verif.Project.changesBetween_once",
    "Verif.Project.changes_missed"
   ],
   "note": "Exact for names, kinds of source, versions, commits and paths; other differences are not reported (theorem)."
  },
  {
   "property": "C43",
   "status": "proved",
   "theorems": [
    "Verif.Uid.ids_unique"
   ],
   "note": "For fewer than 2^64 requests, after which the counter wraps."
  },
  {
   "property": "C44",
   "status": "proved",
   "theorems": [
    "Verif.SrcSpan.merge_least",
    "Verif.SrcSpan.containsSpan_partial_order",
    "Verif.SrcSpan.merge_exact"
   ],
   "note": ""
  },
  {
   "property": "C45",
   "status": "partial",
   "theorems": [
    "Verif.SrcSpan.byteIndex_past_last_line_partial",
    "Verif.SrcSpan.byteIndex_column_not_clamped"
   ],
   "note": "A line past the end is clamped. A column past the end of its line is not: witness theorem."
  },
  {
   "property": "C46",
   "status": "proved",
   "theorems": [
    "Verif.SrcSpan.spansEntireLine_spec"
   ],
   "note": ""
  },
  {
   "property": "C47",
   "status": "proved",
   "theorems": [
    "Verif.Strings.erlang_tags_distinct",
    "Verif.Strings.erlang_type_names_distinct",
    "Verif.Strings.erlang_type_name_not_builtin"
   ],
   "note": ""
  },
  {
   "property": "C48",
   "status": "proved",
   "theorems": [
    "Verif.Strings.string_literal_agreement",
    "Verif.Strings.string_literal_accepted",
    "Verif.Strings.reads_unique"
   ],
   "note": ""
  },
  {
   "property": "C49",
   "status": "proved",
   "theorems": [
    "Verif.Operators.format_expression_stable",
    "Verif.Operators.format_guard_stable"
   ],
   "note": "Layout and comments are dropped; operands of expressions are opaque."
  },
  {
   "property": "C50",
   "status": "partial",
   "theorems": [
    "Verif.Pretty.observed_line",
    "Verif.Pretty.observed_column_partial",
    "Verif.Pretty.observed_column_wrong"
   ],
   "note": "Lines are right when no text holds a newline. Columns are right where graphemes and UTF-16 units agree; wrong after an emoji (theorem)."
  },
  {
   "property": "C51",
   "status": "proved",
   "theorems": [
    "Verif.Project.removeExtraRequirements_correct"
   ],
   "note": "For acyclic lockfiles, as the property says."
  },
  {
   "property": "C52",
   "status": "proved",
   "theorems": [
    "Verif.Project.unlockPackages_correct"
   ],
   "note": ""
  },
  {
   "property": "C53",
   "status": "partial",
   "theorems": [
    "Verif.Project.download_deletes",
    "Verif.Project.download_history_partial",
    "Verif.Project.download_git_to_hex",
    "Verif.Project.download_local_to_hex",
    "Verif.Project.download_stopped"
   ],
   "note": "Proved for all histories in which no package becomes a hex package without a new version; false otherwise and when a process stops half way (theorems)."
  },
  {
   "property": "C54",
   "status": "partial",
   "theorems": [
    "Verif.Numbers.erlang_not_equal_partial",
    "Verif.Numbers.erlang_guard_not_equal",
    "Verif.Numbers.erlang_not_equal_wrong"
   ],
   "note": "Proved for guards, and for expressions without -0.0; false for 0.0 and -0.0 on OTP 27 (theorem)."
  },
  {
   "property": "C55",
   "status": "proved",
   "theorems": [
    "Verif.BitArrays.slicing"
   ],
   "note": "Views of a shared buffer are modelled as copies."
  },
  {
   "property": "C56",
   "status": "proved",
   "theorems": [
    "Verif.BitArrays.joining"
   ],
   "note": ""
  },
  {
   "property": "C57",
   "status": "proved",
   "theorems": [
    "Verif.BitArrays.equality"
   ],
   "note": ""
  },
  {
   "property": "C58",
   "status": "proved",
   "theorems": [
    "Verif.BitArrays.integer_written",
    "Verif.BitArrays.integer_read",
    "Verif.BitArrays.read_write",
    "Verif.BitArrays.integer_round_trip"
   ],
   "note": "Results of more than 53 bits are as exact as the engine's conversion to a number."
  },
  {
   "property": "C59",
   "status": "proved",
   "theorems": [
    "Verif.Segments.pattern_matches_what_it_describes"
   ],
   "note": "For all patterns the type checker lets through (only the last segment takes everything), all sizes, units, types, signs and byte orders, all values of variables from outside."
  },
  {
   "property": "C60",
   "status": "partial",
   "theorems": [
    "Verif.Lexer.minus_after_word_is_an_operator_partial",
    "Verif.Lexer.minus_belongs_to_number"
   ],
   "note": "Proved for names, keywords and numbers. False after constructors, closing brackets and tuple indices (theorem)."
  },
  {
   "property": "C61",
   "status": "proved",
   "theorems": [
    "Verif.Lexer.written_tokens_are_read"
   ],
   "note": "All tokens but comments and line endings; strings without raw carriage returns."
  },
  {
   "property": "C62",
   "status": "partial",
   "theorems": [
    "Verif.ErlText.printed_module_reads_partial",
    "Verif.ErlText.printed_module_injective_partial",
    "Verif.ErlText.negative_size_rejected",
    "Verif.ErlText.quote_in_atom_rejected"
   ],
   "note": "Proved for attributes, functions and all expressions and patterns but records and types, under conditions on names, strings and places (Ok.lean). False for a negative constant as a size and for an external with a quote in its name (theorems)."
  },
  {
   "property": "C63",
   "status": "partial",
   "theorems": [
    "Verif.ErlGen.compiled_module_runs_partial",
    "Verif.ErlGen.compiled_functions_related_partial",
    "Verif.ErlGen.compiled_module_runs_all_partial",
    "Verif.ErlGen.compiled_module_exports_partial",
    "Verif.ErlGen.braces_around_literal_fail",
    "Verif.ErlGen.alias_in_guard_fails"
   ],
   "note": "Proved from the typed syntax tree to the meaning of the printed text, for modules of functions over integers, strings, lists, tuples, records and functions; without floats, bit arrays, assert, echo, specs and types, external functions and constants that are exported. Excluded by conditions: the two cases that are false (theorems), guards that divide by something that is not a constant, divisions whose operands are reordered. Nothing is said of programs that have no meaning, which type checking excludes."
  },
  {
   "property": "C64",
   "status": "partial",
   "theorems": [
    "Verif.JsGen.js_module_runs_partial",
    "Verif.JsGen.js_functions_related_partial",
    "Verif.JsGen.block_lifted_out_of_case",
    "Verif.JsGen.branch_not_taken_is_run",
    "Verif.JsGen.clause_variable_stays_in_scope",
    "Verif.JsGen.block_variable_stays_in_scope",
    "Verif.JsGen.assert_message_has_wrong_variable"
   ],
   "note": "Proved for all modules that meet okModule (decidable; none of the shapes below, and no guard at the first clause that uses variables of patterns that always match), all arguments, depths and behaviours of other modules. False in general (theorems): blocks directly inside an expression of a clause are lifted out of the case, variables of a clause or of a block that is a statement stay in scope, and the message of a let assert sees the variables of the pattern."
  },
  {
   "property": "C65",
   "status": "partial",
   "theorems": [
    "Verif.Infer.accepted_modules_are_safe_partial",
    "Verif.Infer.accepted_modules_may_go_wrong",
    "Verif.Infer.forgottenVariable_wrong",
    "Verif.Infer.variableOfAnother_wrong",
    "Verif.Infer.instanceTooEarly_wrong"
   ],
   "note": "Proved for all accepted modules whose annotations in function bodies use only type variables of the head, and whose groups of mutually recursive functions have no type variables or complete annotations. False otherwise (theorem, three programs): the code accepts modules that go wrong."
  },
  {
   "property": "C66",
   "status": "proved",
   "theorems": [
    "Verif.Infer.functions_have_their_annotated_types",
    "Verif.Infer.annotated_functions_are_general",
    "Verif.Infer.annotated_functions_are_what_they_say"
   ],
   "note": "For all accepted modules, also those that C65 leaves out."
  },
  {
   "property": "C67",
   "status": "proved",
   "theorems": [
    "Verif.Infer.inferred_types_are_principal"
   ],
   "note": "All accepted modules without annotations."
  },
  {
   "property": "C68",
   "status": "partial",
   "theorems": [
    "Verif.Infer.accepted_iff_typable_partial",
    "Verif.Infer.typable_modules_are_not_rejected_partial",
    "Verif.Infer.typable_module_rejected"
   ],
   "note": "Proved for modules without record fields and tuple indices. With a field it is false (theorem): the type of the record has to be known before."
  },
  {
   "property": "C69",
   "status": "proved",
   "theorems": [
    "Verif.Infer.type_inference_ends"
   ],
   "note": "All modules. A step is following a link or going into a type; the model's outcome for running out of steps, or for a panic, does not occur."
  },
  {
   "property": "C70",
   "status": "partial",
   "theorems": [
    "Verif.TypeText.printed_type_is_read_partial",
    "Verif.TypeText.variables_have_their_own_names",
    "Verif.TypeText.unimported_type_is_another_type",
    "Verif.TypeText.forty_five_variables",
    "Verif.TypeText.instantiations_share_a_name",
    "Verif.TypeText.reexport_hides_imported_type",
    "Verif.TypeText.unregistered_name_is_given_twice"
   ],
   "note": "Proved through lexer, parser and name resolution for types that have a name in the module, with at most 44 names for variables, when the named variables of the type have different names. False otherwise (theorems)."
  },
  {
   "property": "C71",
   "status": "proved",
   "theorems": [
    "Verif.Unused.definition_is_unused_iff",
    "Verif.Unused.code_is_left_out_iff"
   ],
   "note": "For all modules without the errors about names that the compiler reports; which references an expression has is given."
  },
  {
   "property": "C72",
   "status": "partial",
   "theorems": [
    "Verif.Unused.reported_is_not_needed",
    "Verif.Unused.unneeded_import_is_reported",
    "Verif.Unused.unreferenced_module_is_reported",
    "Verif.Unused.referenced_module_is_not_reported_partial",
    "Verif.Unused.module_in_use_is_reported",
    "Verif.Unused.module_in_use_is_not_reported",
    "Verif.Unused.nested_module_is_not_reported",
    "Verif.Unused.shadowed_twice_is_not_reported"
   ],
   "note": "The first two parts are proved. The third is false (theorem): a private function with the name of what it refers to in a module makes the compiler report that module. It is proved for definitions with other names."
  },
  {
   "property": "C73",
   "status": "partial",
   "theorems": [
    "Verif.Sugar.notations_keep_meaning_partial",
    "Verif.Sugar.notations_keep_functions_partial",
    "Verif.Sugar.notations_compiled_to_erlang_partial",
    "Verif.Sugar.pipe_is_first_argument",
    "Verif.Sugar.pipe_into_result",
    "Verif.Sugar.pipe_into_function",
    "Verif.Sugar.pipe_assoc",
    "Verif.Sugar.use_is_last_argument",
    "Verif.Sugar.repeated_names_in_use",
    "Verif.Sugar.repeated_names_change_meaning"
   ],
   "note": "Proved for programs without guards, assertions, constants, floats and bit arrays, when the patterns of a `use` have different variables. The type checker does not demand the latter, and then it is false (theorem)."
  },
  {
   "property": "C74",
   "status": "partial",
   "theorems": [
    "Verif.Format.formatted_int_is_same",
    "Verif.Format.formatted_int_is_lexed",
    "Verif.Format.formatted_int_layout",
    "Verif.Format.float_denotes",
    "Verif.Format.denotes_float",
    "Verif.Format.formatted_float_is_same_partial",
    "Verif.Format.formatted_float_is_rejected"
   ],
   "note": "Proved for all integers, and for floats without an underscore before the zeros at the end. False for those (theorem): `1.5_0` is formatted as `1.5_`, which is no float."
  },
  {
   "property": "C75",
   "status": "partial",
   "theorems": [
    "Verif.Format.written_pattern_is_read",
    "Verif.Format.formatted_pattern_is_read_partial",
    "Verif.Format.formatted_pattern_matches_the_same_partial",
    "Verif.Format.formatting_a_pattern_again_is_same_partial",
    "Verif.Format.bare_tail_is_changed"
   ],
   "note": "Proved through printer, lexer and parser for patterns without bit arrays, comments and floats as in C74. False for list patterns that are only a tail (theorem): `[..]` becomes `_`, and `[..] as x` is formatted differently again."
  },
  {
   "property": "C76",
   "status": "proved",
   "theorems": [
    "Verif.Format.written_annotation_is_read",
    "Verif.Format.formatted_annotation_is_read",
    "Verif.Format.formatted_annotation_is_the_same_type",
    "Verif.Format.formatting_an_annotation_again_is_same",
    "Verif.Format.empty_parentheses_are_dropped"
   ],
   "note": "Proved through printer, lexer, parser and hydrator. Comments between the parts of an annotation are not modelled. An annotation that is wrong because of empty parentheses loses them (theorem)."
  },
  {
   "property": "C77",
   "status": "proved",
   "theorems": [
    "Verif.Format.written_imports_are_read",
    "Verif.Format.formatted_imports_import_the_same",
    "Verif.Format.formatting_imports_again_is_same"
   ],
   "note": "Proved through sorting, printer, lexer and parser, for a group of imports. Comments, empty lines between groups and attributes are not modelled."
  },
  {
   "property": "C78",
   "status": "proved",
   "theorems": [
    "Verif.Format.written_type_definition_is_read",
    "Verif.Format.formatted_type_definition_is_read",
    "Verif.Format.formatting_a_type_definition_again_is_same",
    "Verif.Format.attribute_without_constructor_is_dropped"
   ],
   "note": "Proved through printer, lexer and parser. Comments and documentation are not modelled. An attribute that no constructor follows is accepted and dropped (theorem)."
  },
  {
   "property": "C79",
   "status": "proved",
   "theorems": [
    "Verif.Format.written_definition_is_read",
    "Verif.Format.formatted_definition_has_the_same_attributes",
    "Verif.Format.formatting_a_definition_again_is_same"
   ],
   "note": "Proved through printer, lexer and parser, for definitions of types. Comments and documentation are not modelled."
  },
  {
   "property": "C80",
   "status": "proved",
   "theorems": [
    "Verif.Format.written_function_is_read",
    "Verif.Format.formatted_function_has_the_same_signature",
    "Verif.Format.formatting_a_signature_again_is_same"
   ],
   "note": "Proved through printer, lexer and parser. The body is any document that is written as tokens; comments and documentation are not modelled."
  },
  {
   "property": "C81",
   "status": "proved",
   "theorems": [
    "Verif.Format.formatted_simple_file_declares_the_same",
    "Verif.Format.formatted_file_declares_the_same",
    "Verif.Format.formatting_a_file_again_is_same",
    "Verif.Format.simple_bodies_are_kept",
    "Verif.Format.written_file_is_read"
   ],
   "note": "Proved through printer, lexer and parser for files of one group of imports, then types, constants (integers, strings, names, constructors without arguments) and functions. formatted_simple_file_declares_the_same assumes nothing and has functions with no body or one simple value; formatted_file_declares_the_same has any bodies, and assumes that these are kept. Other values of constants, comments and documentation are not modelled."
  },
  {
   "property": "C82",
   "status": "partial",
   "theorems": [
    "Verif.Format.formatted_statements_are_same_partial",
    "Verif.Format.statement_bodies_are_kept"
   ],
   "note": "Proved through printer, lexer and parser for whole files whose functions have statements that are expressions, `let`, `let assert` and `assert` (integers, strings, names, constructors, fields, and calls of those with any such expressions as arguments), with names as patterns. Missing: other expressions and patterns, messages, `use` and comments."
  }
 ]
}