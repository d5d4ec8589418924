{
 "claims": [
  {
   "property": "C01",
   "status": "proved",
   "theorems": [
    "Verif.Shared.c01_linecol_exact",
    "Verif.Shared.c01_linecol_fails",
    "Verif.Shared.c01_getpos_roundtrip",
    "Verif.Shared.c01_caret"
   ],
   "note": "Offsets after the last newline of a text that does not end in a newline make the code fail an assertion; c01_linecol_fails says so."
  },
  {
   "property": "C02",
   "status": "proved",
   "theorems": [
    "Verif.Shared.c02_replacements_exact",
    "Verif.Shared.c02_rejects_overlap",
    "Verif.Shared.c02_order_irrelevant"
   ],
   "note": ""
  },
  {
   "property": "C03",
   "status": "proved",
   "theorems": [
    "Verif.Shared.c03_decode_encode",
    "Verif.Shared.c03_refuses_lt",
    "Verif.Shared.c03_encoding_exists"
   ],
   "note": ""
  },
  {
   "property": "C04",
   "status": "proved",
   "theorems": [
    "Verif.Shared.c04_closed_is_document",
    "Verif.Shared.c04_prefix_of_document",
    "Verif.Shared.c04_closed_is_final",
    "Verif.Shared.c04_closed_is_balanced"
   ],
   "note": ""
  },
  {
   "property": "C05",
   "status": "proved",
   "theorems": [
    "Verif.Shared.c05_listing",
    "Verif.Shared.c05_order_irrelevant",
    "Verif.Shared.c05_bad_position_fails",
    "Verif.Shared.c05_targeted",
    "Verif.Shared.c05_caret_column",
    "Verif.Shared.c05_caret_range"
   ],
   "note": ""
  },
  {
   "property": "C06",
   "status": "proved",
   "theorems": [
    "Verif.Graph.c06_clusters_exact",
    "Verif.Graph.build_mem"
   ],
   "note": "for every iteration order of the Python sets; recursion depth limit not modelled"
  },
  {
   "property": "C07",
   "status": "proved",
   "theorems": [
    "Verif.Graph.c07_levels"
   ],
   "note": ""
  },
  {
   "property": "C08",
   "status": "proved",
   "theorems": [
    "Verif.DFA.c08_items_exact",
    "Verif.DFA.c08_transitions_exact",
    "Verif.DFA.c08_defined_iff",
    "Verif.DFA.c08_states_distinct",
    "Verif.DFA.c08_kernels_not_rearranged",
    "Verif.DFA.c08_accessor_shortest",
    "Verif.DFA.c08_no_assertion",
    "Verif.DFA.c08_terminates",
    "Verif.DFA.c08_same_set_two_states"
   ],
   "note": "Kernels are lists, so two states may hold the same set of items with different multiplicities (c08_same_set_two_states)."
  },
  {
   "property": "C09",
   "status": "proved",
   "theorems": [
    "Verif.Util.c09_duplicate_refused",
    "Verif.Util.c09_lookup_first",
    "Verif.Util.c09_contains",
    "Verif.Util.c09_access_counts"
   ],
   "note": ""
  },
  {
   "property": "C10",
   "status": "proved",
   "theorems": [
    "Verif.Util.c10_maximal_munch",
    "Verif.Util.c10_no_loss",
    "Verif.Util.c10_error_exact",
    "Verif.Util.c10_terminates",
    "Verif.Util.c10_zero_length_diverges",
    "Verif.Util.c10_unused"
   ],
   "note": "regular expressions are parameters giving a match length at an offset"
  },
  {
   "property": "C11",
   "status": "proved",
   "theorems": [
    "Verif.Util.c11_scan_complete",
    "Verif.Util.c11_scan_reports",
    "Verif.Util.c11_scan_terminates",
    "Verif.Util.c11_empty_pattern_diverges",
    "Verif.Util.c11_unused"
   ],
   "note": ""
  },
  {
   "property": "C12",
   "status": "proved",
   "theorems": [
    "Verif.HTML.c12_parse_exact",
    "Verif.HTML.c12_tiles",
    "Verif.HTML.c12_nested",
    "Verif.HTML.c12_names"
   ],
   "note": "Mismatched end-tags are reported and skipped; c12_parse_exact covers that case, c12_tiles the case without messages. The parent link and _validate are not modelled here."
  },
  {
   "property": "C13",
   "status": "proved",
   "theorems": [
    "Verif.HTML.c13_silent_iff_balanced",
    "Verif.HTML.c13_mismatch_reported",
    "Verif.HTML.c13_messages_genuine",
    "Verif.HTML.c13_unclosed_refused"
   ],
   "note": "A mismatched end-tag after the last newline crashes the program instead of being reported (see C01)."
  },
  {
   "property": "C14",
   "status": "proved",
   "theorems": [
    "Verif.Types.c14_sound",
    "Verif.Types.c14_complete_named",
    "Verif.Types.c14_procedure_parameters_unchecked",
    "Verif.Types.grown_ok"
   ],
   "note": "The program never compares procedure parameters (a generator expression is tested for truth); c14_procedure_parameters_unchecked is the counterexample for the usual reading."
  },
  {
   "property": "C15",
   "status": "proved",
   "theorems": [
    "Verif.Types.c15_reflexive",
    "Verif.Types.c15_transitive",
    "Verif.Types.c15_third_answer_can_fail",
    "Verif.Types.c15_names"
   ],
   "note": "The third test may hit an assertion (list type against procedure type)."
  },
  {
   "property": "C16",
   "status": "proved",
   "theorems": [
    "Verif.Types.c16_contains",
    "Verif.Types.c16_exact",
    "Verif.Types.c16_or",
    "Verif.Types.c16_set",
    "Verif.Types.c16_recursion",
    "Verif.Types.c16_defined",
    "Verif.Types.c16_lists_merge",
    "Verif.Types.c16_bare_list_dropped"
   ],
   "note": "The provisos on list types are needed: c16_lists_merge, c16_bare_list_dropped."
  },
  {
   "property": "C17",
   "status": "proved",
   "theorems": [
    "Verif.Types.c17_canonical",
    "Verif.Types.c17_irredundant",
    "Verif.Types.c17_set",
    "Verif.Types.c17_list_not_canonical"
   ],
   "note": "List is treated apart by the program; with it results need not be canonical."
  },
  {
   "property": "C18",
   "status": "proved",
   "theorems": [
    "Verif.Types.c18_partition",
    "Verif.Types.c18_tbd",
    "Verif.Types.c18_lists_not_partitioned"
   ],
   "note": "Proved for unions of named types; the special cases for list types and Completion Records are modelled, and the one for List is shown not to partition."
  },
  {
   "property": "C19",
   "status": "proved",
   "theorems": [
    "Verif.Pseudo.c19_text",
    "Verif.Pseudo.c19_depth",
    "Verif.Pseudo.c19_runs",
    "Verif.Pseudo.c19_end",
    "Verif.Pseudo.c19_accepted",
    "Verif.Pseudo.c19_initial",
    "Verif.Pseudo.c19_ends",
    "Verif.Pseudo.c19_below_base_witness",
    "Verif.Pseudo.c19_unclosed_witness",
    "Verif.Pseudo.c19_names"
   ],
   "note": "All token patterns but the first three (end, line break, blank) are a parameter. Two clauses one would expect (depth never below the base, indents closed at the end) are not enforced by the program; the witnesses show it."
  },
  {
   "property": "C20",
   "status": "proved",
   "theorems": [
    "Verif.Pseudo.c20_productions",
    "Verif.Pseudo.c20_repeated",
    "Verif.Pseudo.c20_epsilon",
    "Verif.Pseudo.c20_undefined"
   ],
   "note": "The pattern of right-hand-side pieces, the white space of lstrip and the \\u escape are parameters."
  },
  {
   "property": "C21",
   "status": "proved",
   "theorems": [
    "Verif.Earley.c21_settings",
    "Verif.Earley.c21_settings_refused",
    "Verif.Earley.c21_arguments",
    "Verif.Earley.c21_expansion",
    "Verif.Earley.c21_succeeds",
    "Verif.Earley.c21_names"
   ],
   "note": "The grammar is taken as parsed. An optional literal and an optional nonterminal of the same spelling would share one entry; c21_expansion says only that the entry belongs to one of them."
  },
  {
   "property": "C22",
   "status": "proved",
   "theorems": [
    "Verif.Earley.c22_lexical",
    "Verif.Earley.c22_syntactic"
   ],
   "note": "In the syntactic parser a constraint is checked against the tokens known at that moment, so semicolons inserted later are not seen by it; the statement says so. Reparses with other bounds are not modelled."
  },
  {
   "property": "C23",
   "status": "proved",
   "theorems": [
    "Verif.Earley.c23_lexical",
    "Verif.Earley.c23_lexical_accepts",
    "Verif.Earley.c23_diverges",
    "Verif.Earley.c23_diverges_witness",
    "Verif.Earley.c23_syntactic",
    "Verif.Earley.c23_syntactic_halts"
   ],
   "note": "Syntactic completeness is for texts whose input elements do not depend on the syntactic context (no regular expression or template tails). The usual reading for cyclic grammars is refuted by c23_diverges_witness."
  },
  {
   "property": "C24",
   "status": "proved",
   "theorems": [
    "Verif.Earley.c24_longest",
    "Verif.Earley.c24_longest_any"
   ],
   "note": ""
  },
  {
   "property": "C25",
   "status": "proved",
   "theorems": [
    "Verif.Earley.c25_request",
    "Verif.Earley.c25_refused",
    "Verif.Earley.c25_stream",
    "Verif.Earley.c25_tree"
   ],
   "note": "The proviso on for-statement headers is not implemented in the program (marked XXX there) and hence not claimed."
  },
  {
   "property": "C26",
   "status": "proved",
   "theorems": [
    "Verif.Gram.c26_sound",
    "Verif.Gram.c26_error",
    "Verif.Gram.c26_complete",
    "Verif.Gram.c26_unique",
    "Verif.Gram.c26_fits",
    "Verif.Gram.c26_metagrammar",
    "Verif.Gram.c26_text",
    "Verif.Gram.c26_productions",
    "Verif.Gram.c26_leak_witness"
   ],
   "note": "The patterns of the terminals are modelled; \\w is a parameter. The list of expectations in the error message is not modelled. The result holds because the metagrammar is balanced; c26_leak_witness shows that the parser is wrong for other grammars."
  },
  {
   "property": "C27",
   "status": "proved",
   "theorems": [
    "Verif.Gram.c27_sound",
    "Verif.Gram.c27_complete",
    "Verif.Gram.c27_notes",
    "Verif.Gram.c27_bits",
    "Verif.Gram.c27_greedy_witness"
   ],
   "note": "The matching is greedy, so it is complete only for right-hand sides without repeated symbols; c27_greedy_witness is the counterexample otherwise. Messages about parameters are given even when the match fails later."
  },
  {
   "property": "C28",
   "status": "proved",
   "theorems": [
    "Verif.Gram.c28_optbits",
    "Verif.Gram.c28_count",
    "Verif.Gram.c27_bits"
   ],
   "note": ""
  },
  {
   "property": "C29",
   "status": "proved",
   "theorems": [
    "Verif.Gram.c29_worklist",
    "Verif.Gram.c29_worklist_fails",
    "Verif.Gram.c29_worklist_ends",
    "Verif.Gram.c29_report",
    "Verif.Gram.c29_operations",
    "Verif.Gram.c29_operations_end"
   ],
   "note": ""
  },
  {
   "property": "C30",
   "status": "proved",
   "theorems": [
    "Verif.Records.c30_history",
    "Verif.Records.c30_state",
    "Verif.Records.c30_once",
    "Verif.Records.c30_no_field_twice",
    "Verif.Records.c30_late_witness",
    "Verif.Records.c30_complaint",
    "Verif.Records.c30_traversal",
    "Verif.Records.c30_depth",
    "Verif.Records.c30_table",
    "Verif.Records.c30_program"
   ],
   "note": "Declaring a field in a schema does not look at the schemas under it, so a field can occur twice on a path if it is declared there first; c30_late_witness shows it, and c30_no_field_twice assumes declaration from the top down."
  },
  {
   "property": "C31",
   "status": "proved",
   "theorems": [
    "Verif.Intrin.c31_merge",
    "Verif.Intrin.c31_accepted",
    "Verif.Intrin.c31_known",
    "Verif.Intrin.c31_order",
    "Verif.Intrin.c31_defaults",
    "Verif.Intrin.c31_defaults_refused",
    "Verif.Intrin.c31_names"
   ],
   "note": "The look-up of the default length (from the section) and name is a parameter. Differing [[ccb]] values are not refused by the program: the first one is kept. Describing a property both as data and as accessor property is accepted when the facts are merged and refused only when defaults are applied."
  },
  {
   "property": "C32",
   "status": "proved",
   "theorems": [
    "Verif.Intrin.c32_order",
    "Verif.Intrin.c32_prototype_first",
    "Verif.Intrin.c32_found",
    "Verif.Intrin.c32_fails"
   ],
   "note": "On cyclic prototypes the program recurses without end (c32_fails)."
  },
  {
   "property": "C33",
   "status": "proved",
   "theorems": [
    "Verif.Env.c33_or",
    "Verif.Env.c33_or_covers",
    "Verif.Env.c33_or_contains",
    "Verif.Env.c33_and"
   ],
   "note": "Keys of environments are variables and *return*. Exactness is for types given by names; containment also for record, list and procedure types within the provisos of C16. Conjunction is proved for types given by names and TBD."
  },
  {
   "property": "C34",
   "status": "proved",
   "theorems": [
    "Verif.Env.c34_test",
    "Verif.Env.c34_messages",
    "Verif.Env.c34_logical",
    "Verif.Env.c34_lists_witness"
   ],
   "note": "For types given by names and tests of variables; for list types it fails (c34_lists_witness). Atomic conditions other than type tests are a parameter, assumed to be analysed correctly."
  },
  {
   "property": "C35",
   "status": "proved",
   "theorems": [
    "Verif.Env.c35_fixpoint",
    "Verif.Env.c35_appends",
    "Verif.Env.c35_loop_sound",
    "Verif.Env.c35_third_pass_witness",
    "Verif.Env.c35_returning_body_witness",
    "Verif.Env.c35_names"
   ],
   "note": "The program fails on loops that settle only in the third pass, and on loops whose body always returns; the witnesses show it."
  },
  {
   "property": "C36",
   "status": "proved",
   "theorems": [
    "Verif.Exec.c36_in_order",
    "Verif.Exec.c36_answers",
    "Verif.Exec.c36_final",
    "Verif.Exec.c36_block"
   ],
   "note": ""
  },
  {
   "property": "C37",
   "status": "proved",
   "theorems": [
    "Verif.Early.c37_errors",
    "Verif.Early.c37_nested",
    "Verif.Early.c37_determined",
    "Verif.Early.c37_once",
    "Verif.Early.c37_plain",
    "Verif.Early.c37_cover",
    "Verif.Early.c37_completes",
    "Verif.Early.c37_stops",
    "Verif.Early.c37_self_witness",
    "Verif.Early.c37_cache_witness"
   ],
   "note": "Provided no node is found to cover something after its own rules were applied (c37_self_witness shows that this is needed), and that all nodes are different objects. What a rule does is a program that may report, ask for covered nodes and make nested calls. The covered node is remembered without the nonterminal (c37_cache_witness)."
  },
  {
   "property": "C38",
   "status": "proved",
   "theorems": [
    "Verif.Sections.c38_tree",
    "Verif.Sections.c38_succeeds",
    "Verif.Sections.c38_places",
    "Verif.Sections.c38_number",
    "Verif.Sections.c38_distinct",
    "Verif.Sections.c38_order",
    "Verif.Sections.c38_list",
    "Verif.Sections.c38_intro_witness"
   ],
   "note": "Distinctness needs at most one emu-intro: several would all be numbered 0 (c38_intro_witness). More than 26 annexes make the program fail (c38_succeeds)."
  },
  {
   "property": "C39",
   "status": "proved",
   "theorems": [
    "Verif.Vars.c39_undefined",
    "Verif.Vars.c39_unused",
    "Verif.Vars.c39_sorted"
   ],
   "note": "After the early returns for incomplete algorithms (a test of the preceding text), which are not modelled."
  },
  {
   "property": "C40",
   "status": "proved",
   "theorems": [
    "Verif.Gram.c40_move",
    "Verif.Gram.c40_permutation",
    "Verif.Gram.c40_fails",
    "Verif.Gram.c40_groups"
   ],
   "note": "Marks are given by predicates (startswith). The block reaches from the first to the last matching line, with whatever is between them."
  },
  {
   "property": "C41",
   "status": "proved",
   "theorems": [
    "Verif.Env.c41_command",
    "Verif.Env.c41_algorithm"
   ],
   "note": "Restricted to types given by names and to algorithms whose returned values are not wrapped in Completion Records; atomic expressions and conditions are parameters assumed to be analysed correctly."
  },
  {
   "property": "C42",
   "status": "proved",
   "theorems": [
    "Verif.Exec.c42_call",
    "Verif.Exec.c42_algorithms",
    "Verif.Exec.c42_leak_witness"
   ],
   "note": "Provided no operation comes back with a missing thing, which holds if operations are defined by algorithms (c42_algorithms). An operation defined by an expression that raises leaves its frame on the stack (c42_leak_witness). Primitive expressions and conditions are parameters that do not modify the state; in-place modification of Lists, \"Attempt to parse\" and the recursion limit are not modelled."
  },
  {
   "property": "C43",
   "status": "proved",
   "theorems": [
    "Verif.Exec.c43_rules",
    "Verif.Exec.c43_independent",
    "Verif.Exec.c43_scope_witness",
    "Verif.Exec.c43_algorithm_witness"
   ],
   "note": "If a missing thing turns up in the scope of a local variable the contour stays open (c43_scope_witness); variables of embedded algorithms stay visible (c43_algorithm_witness). \"must cover\" rules are part of C37."
  },
  {
   "property": "C44",
   "status": "proved",
   "theorems": [
    "Verif.Sections.c44_optional",
    "Verif.Sections.c44_rest",
    "Verif.Sections.c44_sound"
   ],
   "note": "Word characters are restricted to ASCII; the stripping is of spaces only."
  },
  {
   "property": "C45",
   "status": "proved",
   "theorems": [
    "Verif.Sections.c45_pipeline"
   ],
   "note": ""
  },
  {
   "property": "C46",
   "status": "proved",
   "theorems": [
    "Verif.Sections.c46_items"
   ],
   "note": ""
  },
  {
   "property": "C47",
   "status": "proved",
   "theorems": [
    "Verif.Sdo.c47_report",
    "Verif.Sdo.c47_completes",
    "Verif.Sdo.c47_sound",
    "Verif.Sdo.c47_no_false_alarm",
    "Verif.Sdo.c47_optional_literal_witness"
   ],
   "note": "Parse trees are those of the definitions in the main text. The nonterminals of the invocations and the exceptions are parameters. If a literal is optional, a production can be missed (c47_optional_literal_witness)."
  },
  {
   "property": "C48",
   "status": "proved",
   "theorems": [
    "Verif.Sdo.c48_dispatch",
    "Verif.Sdo.c48_undefined",
    "Verif.Sdo.c48_default"
   ],
   "note": "The execution of the definition is C42; the stand-in results for particular operations after the error message are not modelled."
  },
  {
   "property": "C49",
   "status": "proved",
   "theorems": [
    "Verif.Front.c49_frontmatter",
    "Verif.Front.c49_unambiguous",
    "Verif.Front.c49_first_entry_witness"
   ],
   "note": "The classes of word and white characters are parameters. A mapping whose first value is a collection is refused (c49_first_entry_witness), so the grammar demands that the first line have a colon with a space after it."
  },
  {
   "property": "C50",
   "status": "proved",
   "theorems": [
    "Verif.Validate.c50_messages",
    "Verif.Validate.c50_finishes",
    "Verif.Validate.c50_clean",
    "Verif.Validate.c50_stray_cell_witness",
    "Verif.Validate.c50_two_comments_witness",
    "Verif.Validate.c50_names"
   ],
   "note": "Regular expressions of attributes and content models are given by what they match. Names in messages are not sorted or joined. A th or td outside of tables makes the validation fail (c50_stray_cell_witness); a second comment in a row counts as content (c50_two_comments_witness)."
  },
  {
   "property": "C51",
   "status": "proved",
   "theorems": [
    "Verif.Ids.c51_messages",
    "Verif.Ids.c51_finishes",
    "Verif.Ids.c51_table",
    "Verif.Ids.c51_clean",
    "Verif.Ids.c51_terms",
    "Verif.Ids.c51_nodes",
    "Verif.Ids.c51_split",
    "Verif.Ids.c51_last_decl_witness",
    "Verif.Ids.c51_names"
   ],
   "note": "The ids found in the text of an algorithm and the ids that fit an operation are parameters. The order of messages is not stated. When an id is declared twice, references are judged by its last declaration only (c51_last_decl_witness)."
  },
  {
   "property": "C52",
   "status": "proved",
   "theorems": [
    "Verif.Tables.c52_reads",
    "Verif.Tables.c52_finishes",
    "Verif.Tables.c52_caption_unique",
    "Verif.Tables.c52_cell",
    "Verif.Tables.c52_text",
    "Verif.Tables.c52_round_trip",
    "Verif.Tables.c52_empty_row_witness",
    "Verif.Tables.c52_same_header_witness",
    "Verif.Tables.c52_no_rows_witness",
    "Verif.Tables.c52_names"
   ],
   "note": "White space and int() are parameters. A row without cells counts as a header (c52_empty_row_witness); of two columns with the same header the first is missing from the dict (c52_same_header_witness); a table without rows is accepted here (c52_no_rows_witness)."
  },
  {
   "property": "C53",
   "status": "proved",
   "theorems": [
    "Verif.Sta.c53_report",
    "Verif.Sta.c53_by_calls",
    "Verif.Sta.c53_stated",
    "Verif.Sta.c53_changes",
    "Verif.Sta.c53_callers",
    "Verif.Sta.c53_gives_up",
    "Verif.Sta.c53_all_stated",
    "Verif.Sta.c53_unique",
    "Verif.Sta.c53_cut_dependency_witness",
    "Verif.Sta.c53_names"
   ],
   "note": "The analysis of one body is a parameter that may read the declared types of the operations that are called. c53_by_calls composes it with the levels of C06 and C07. For the calls that the program leaves out of the graph on purpose the report can be out of date (c53_cut_dependency_witness)."
  },
  {
   "property": "C54",
   "status": "proved",
   "theorems": [
    "Verif.StepRefs.c54_refs",
    "Verif.StepRefs.c54_locate",
    "Verif.StepRefs.c54_found",
    "Verif.StepRefs.c54_report",
    "Verif.StepRefs.c54_report_iff",
    "Verif.StepRefs.c54_cut_short_witness",
    "Verif.StepRefs.c54_after_element_witness"
   ],
   "note": "Over the documents of the HTML parser of C12. The table of ids (C51) is a parameter. Of a list in none of the known forms only the first steps may be reported (c54_cut_short_witness), and a reference just after an element with content makes the program fail (c54_after_element_witness)."
  },
  {
   "property": "C55",
   "status": "proved",
   "theorems": [
    "Verif.Defs.c55_stops",
    "Verif.Defs.c55_messages",
    "Verif.Defs.c55_table",
    "Verif.Defs.c55_grammar",
    "Verif.Defs.c55_goals",
    "Verif.Defs.c55_lhs_sign_witness",
    "Verif.Defs.c55_goal_witness"
   ],
   "note": "On the trees of productions that the metagrammar allows (C26). Two checks of the code never work, which c55_lhs_sign_witness and c55_goal_witness show."
  },
  {
   "property": "C56",
   "status": "proved",
   "theorems": [
    "Verif.Uses.c56_stops",
    "Verif.Uses.c56_report",
    "Verif.Uses.c56_one_case",
    "Verif.Uses.c56_match",
    "Verif.Uses.c56_reduced",
    "Verif.Uses.c56_quiet",
    "Verif.Uses.c56_early_witness",
    "Verif.Uses.c56_characters_witness"
   ],
   "note": "For any result of the processing of C55; the matching of right-hand sides is that of C27. c56_early_witness: the messages on arguments are given even if the right-hand sides then do not match."
  },
  {
   "property": "C57",
   "status": "proved",
   "theorems": [
    "Verif.Refs.c57_annex_stops",
    "Verif.Refs.c57_annex",
    "Verif.Refs.c57_references_unique",
    "Verif.Refs.c57_stops",
    "Verif.Refs.c57_messages",
    "Verif.Refs.c57_says_unique",
    "Verif.Refs.c57_one_letter_witness",
    "Verif.Refs.c57_between_witness",
    "Verif.Refs.c57_no_mark_witness"
   ],
   "note": "For any result of the processing of C55, and any class of word characters without the bracket and the question mark. The witnesses: references with one-letter names are missed, text between two of them is taken for a reference, and without a mark everything counts as annex B."
  },
  {
   "property": "C58",
   "status": "proved",
   "theorems": [
    "Verif.Heads.c58_grammar",
    "Verif.Heads.c58_is",
    "Verif.Heads.c58_instance",
    "Verif.Heads.c58_unit",
    "Verif.Heads.c58_any",
    "Verif.Heads.c58_number",
    "Verif.Heads.c58_contains",
    "Verif.Heads.c58_invocation",
    "Verif.Heads.c58_undefined",
    "Verif.Heads.c58_default",
    "Verif.Heads.c58_covered",
    "Verif.Heads.c58_unused",
    "Verif.Heads.c58_guard_witness"
   ],
   "note": "Composes C47, C48, C55 and C56. For elements for which the main definitions count; c58_covered also for grammars in which only nonterminals are optional, as C47. The witness: right-hand sides that differ in their guards only are not told apart."
  },
  {
   "property": "C59",
   "status": "proved",
   "theorems": [
    "Verif.Deps.c59_report",
    "Verif.Deps.c59_unique",
    "Verif.Deps.c59_completes",
    "Verif.Deps.c59_messages",
    "Verif.Deps.c59_invocations",
    "Verif.Deps.c59_the",
    "Verif.Deps.c59_the_completes",
    "Verif.Deps.c59_optional",
    "Verif.Deps.c59_optional_completes",
    "Verif.Deps.c59_unlisted_witness",
    "Verif.Deps.c59_same_name_witness"
   ],
   "note": "The names of invoked operations are an attribute of nodes; C60 is about them. The first witness: an operation that is referenced but not declared is only listed if it is reached. The second: an operation is taken to look like runtime semantics if a function of the same name calls one that does."
  },
  {
   "property": "C60",
   "status": "proved",
   "theorems": [
    "Verif.Annot.c60_names",
    "Verif.Annot.c60_one_reading",
    "Verif.Annot.c60_connect",
    "Verif.Annot.c60_process",
    "Verif.Annot.c60_unique",
    "Verif.Annot.c60_completes",
    "Verif.Annot.c60_plain"
   ],
   "note": "c60_plain discharges the hypothesis of C59 on embedded trees."
  },
  {
   "property": "C61",
   "status": "proved",
   "theorems": [
    "Verif.Style.c61_ifs",
    "Verif.Style.c61_if_one",
    "Verif.Style.c61_common",
    "Verif.Style.c61_if_completes",
    "Verif.Style.c61_descriptions",
    "Verif.Style.c61_letter",
    "Verif.Style.c61_words"
   ],
   "note": "The classes of characters of the regular expressions and of rstrip are parameters."
  },
  {
   "property": "C62",
   "status": "proved",
   "theorems": [
    "Verif.Algs.c62_header",
    "Verif.Algs.c62_no_marks",
    "Verif.Algs.c62_registry",
    "Verif.Algs.c62_stops",
    "Verif.Algs.c62_fit",
    "Verif.Algs.c62_check",
    "Verif.Algs.c62_unique"
   ],
   "note": "Messages written before the program stops are left out."
  },
  {
   "property": "C63",
   "status": "proved",
   "theorems": [
    "Verif.Layout.c63_messages",
    "Verif.Layout.c63_stops",
    "Verif.Layout.c63_lines",
    "Verif.Layout.c63_unique",
    "Verif.Layout.c63_well_laid",
    "Verif.Layout.c63_below_message_witness"
   ],
   "note": "The messages are given as a set for the document, and up to order for the lines of one content. Messages written before the program stops are left out."
  },
  {
   "property": "C64",
   "status": "proved",
   "theorems": [
    "Verif.Layout.c64_extra_blanks",
    "Verif.Layout.c64_blank_before_end",
    "Verif.Layout.c64_trailing",
    "Verif.Layout.c64_unusual"
   ],
   "note": ""
  },
  {
   "property": "C65",
   "status": "proved",
   "theorems": [
    "Verif.Focus.c65_stands",
    "Verif.Focus.c65_resolves",
    "Verif.Focus.c65_static_stops",
    "Verif.Focus.c65_static_errors",
    "Verif.Focus.c65_static_type",
    "Verif.Focus.c65_sound",
    "Verif.Focus.c65_augment",
    "Verif.Focus.c65_augmented",
    "Verif.Focus.c65_names",
    "Verif.Focus.c65_first_of_one_witness",
    "Verif.Focus.c65_hidden_witness",
    "Verif.Focus.c65_ask_twice_witness"
   ],
   "note": "Soundness needs that the heading shows all occurrences of the nonterminal, and several of them for references by number; the witnesses show that it fails otherwise."
  },
  {
   "property": "C66",
   "status": "proved",
   "theorems": [
    "Verif.Titles.c66_stops",
    "Verif.Titles.c66_reads",
    "Verif.Titles.c66_faithful",
    "Verif.Titles.c66_id_host",
    "Verif.Titles.c66_id_numeric",
    "Verif.Titles.c66_id_env",
    "Verif.Titles.c66_id_internal",
    "Verif.Titles.c66_names",
    "Verif.Titles.c66_optional_first_witness"
   ],
   "note": "The ids of abstract operations, syntax-directed operations and properties are not modelled."
  },
  {
   "property": "C67",
   "status": "proved",
   "theorems": [
    "Verif.Titles.c67_title_stops",
    "Verif.Titles.c67_title",
    "Verif.Titles.c67_title_few",
    "Verif.Titles.c67_title_prefix_witness",
    "Verif.Titles.c67_aoid_stops",
    "Verif.Titles.c67_aoid",
    "Verif.Titles.c67_order_stops",
    "Verif.Titles.c67_order",
    "Verif.Titles.c67_sorted",
    "Verif.Titles.c67_key",
    "Verif.Titles.c67_key_get",
    "Verif.Titles.c67_key_int8",
    "Verif.Titles.c67_key_underscores",
    "Verif.Titles.c67_key_symbol",
    "Verif.Titles.c67_names"
   ],
   "note": ""
  },
  {
   "property": "C68",
   "status": "proved",
   "theorems": [
    "Verif.Calls.c68_messages",
    "Verif.Calls.c68_too_many",
    "Verif.Calls.c68_sound",
    "Verif.Calls.c68_bare_list_witness"
   ],
   "note": "Exactness is for types given by names, where no node of the hierarchy has a single child; the analysis of a single expression is a parameter."
  },
  {
   "property": "C69",
   "status": "proved",
   "theorems": [
    "Verif.Calls.c69_ensure",
    "Verif.Calls.c69_ensure_sound",
    "Verif.Calls.c69_assert",
    "Verif.Calls.c69_assert_exact",
    "Verif.Calls.c69_append",
    "Verif.Calls.c69_append_not_list",
    "Verif.Calls.c69_bare_witness"
   ],
   "note": "The analysis of a single expression is a parameter; appending is for lists that are variables."
  },
  {
   "property": "C70",
   "status": "proved",
   "theorems": [
    "Verif.Arith.c70_sound",
    "Verif.Arith.c70_tight",
    "Verif.Arith.c70_complaints",
    "Verif.Arith.c70_modulo",
    "Verif.Arith.c70_usual_witness"
   ],
   "note": "For types given by names; the analysis of an expression that is not arithmetic is a parameter (assumed right when it says nothing). Static types of expressions other than variables are not kept in environments."
  },
  {
   "property": "C71",
   "status": "proved",
   "theorems": [
    "Verif.Arith.c71_verdict",
    "Verif.Arith.c71_mixed_witness",
    "Verif.Arith.c71_sound"
   ],
   "note": "As C70. Comparisons with code points stop the program (an undefined variable)."
  },
  {
   "property": "C72",
   "status": "proved",
   "theorems": [
    "Verif.Arith.c72_chain",
    "Verif.Arith.c72_interval",
    "Verif.Arith.c72_chain_false_witness",
    "Verif.Arith.c72_mixed_witness"
   ],
   "note": "As C70. The environment for the case that a chain fails is wrong: see the witness."
  },
  {
   "property": "C73",
   "status": "proved",
   "theorems": [
    "Verif.Arith.c73_exec",
    "Verif.Arith.c73_compare",
    "Verif.Arith.c73_chain",
    "Verif.Arith.c73_comparators",
    "Verif.Arith.c73_stops_witness"
   ],
   "note": "As long as all numbers are Python ints: division and negative exponents give floats, and are not modelled."
  },
  {
   "property": "C74",
   "status": "proved",
   "theorems": [
    "Verif.Paths.c74_name",
    "Verif.Paths.c74_only",
    "Verif.Paths.c74_unambiguous",
    "Verif.Paths.c74_distinct",
    "Verif.Paths.c74_again",
    "Verif.Paths.c74_symbol_witness",
    "Verif.Paths.c74_generator_witness"
   ],
   "note": "Texts without newlines; letters are ASCII."
  },
  {
   "property": "C75",
   "status": "proved",
   "theorems": [
    "Verif.Paths.c75_split",
    "Verif.Paths.c75_unique",
    "Verif.Paths.c75_confirm",
    "Verif.Paths.c75_confirm_none"
   ],
   "note": "Texts without newlines; letters are ASCII. A text that cannot be split is accepted, as in the code."
  },
  {
   "property": "C76",
   "status": "proved",
   "theorems": [
    "Verif.Unwrap.c76_sound",
    "Verif.Unwrap.c76_messages",
    "Verif.Unwrap.c76_type",
    "Verif.Unwrap.c76_checked",
    "Verif.Unwrap.c76_bang_defined",
    "Verif.Unwrap.c76_bang_stops_witness"
   ],
   "note": "Types with at most one part for each kind of completion, or the type of all of them; the values are those of operands all of whose parts are Completion Records. Types of expressions other than variables are not remembered in environments."
  },
  {
   "property": "C77",
   "status": "proved",
   "theorems": [
    "Verif.Unwrap.c77_return",
    "Verif.Unwrap.c77_throw",
    "Verif.Unwrap.c77_throw_error",
    "Verif.Unwrap.c77_close",
    "Verif.Unwrap.c77_reject"
   ],
   "note": "As C76. For types with parts that are not Completion Records, they have no normal completion as another part."
  },
  {
   "property": "C78",
   "status": "proved",
   "theorems": [
    "Verif.Bodies.c78_sdo",
    "Verif.Bodies.c78_sdo_algs",
    "Verif.Bodies.c78_inline",
    "Verif.Bodies.c78_early",
    "Verif.Bodies.c78_early_misplaced",
    "Verif.Bodies.c78_operation",
    "Verif.Bodies.c78_function",
    "Verif.Bodies.c78_odd",
    "Verif.Bodies.c78_odd_drops_witness",
    "Verif.Bodies.c78_other",
    "Verif.Bodies.c78_parsed_once",
    "Verif.Bodies.c78_no_sharing"
   ],
   "note": "Sections that are recognized by their numbers (changes in Annex B) are only covered by the last two. The five sections known by id or title are not checked for a second algorithm: the witness."
  },
  {
   "property": "C79",
   "status": "proved",
   "theorems": [
    "Verif.Kinds.c79_kind",
    "Verif.Kinds.c79_unique",
    "Verif.Kinds.c79_total",
    "Verif.Kinds.c79_stops",
    "Verif.Kinds.c79_function",
    "Verif.Kinds.c79_head_call",
    "Verif.Kinds.c79_head_accessor",
    "Verif.Kinds.c79_head_none",
    "Verif.Kinds.c79_ref_title",
    "Verif.Kinds.c79_reference",
    "Verif.Kinds.c79_unused",
    "Verif.Kinds.c79_changes",
    "Verif.Kinds.c79_other",
    "Verif.Kinds.c79_function_section",
    "Verif.Kinds.c79_check_id"
   ],
   "note": ""
  },
  {
   "property": "C80",
   "status": "proved",
   "theorems": [
    "Verif.Strict.c80_sound",
    "Verif.Strict.c80_strict",
    "Verif.Strict.c80_async_stops",
    "Verif.Strict.c80_parameters_stop",
    "Verif.Strict.c80_nested",
    "Verif.Strict.c80_containing",
    "Verif.Strict.c80_goal",
    "Verif.Strict.c80_duplicates"
   ],
   "note": "c80_async_stops and c80_parameters_stop say where there is no answer: the program asserts there"
  },
  {
   "property": "C81",
   "status": "proved",
   "theorems": [
    "Verif.Preambles.c81_sentence",
    "Verif.Preambles.c81_split",
    "Verif.Preambles.c81_stops_reading",
    "Verif.Preambles.c81_facts",
    "Verif.Preambles.c81_described",
    "Verif.Preambles.c81_field",
    "Verif.Preambles.c81_stops",
    "Verif.Preambles.c81_params_stop",
    "Verif.Preambles.c81_head",
    "Verif.Preambles.c81_messages",
    "Verif.Preambles.c81_check",
    "Verif.Preambles.c81_not_read"
   ],
   "note": "c81_params_stop: for differing names of parameters the program stops instead of reporting them"
  },
  {
   "property": "C82",
   "status": "proved",
   "theorems": [
    "Verif.Wki.c82_tables",
    "Verif.Wki.c82_globals_once",
    "Verif.Wki.c82_phrase",
    "Verif.Wki.c82_refs",
    "Verif.Wki.c82_messages",
    "Verif.Wki.c82_sound",
    "Verif.Wki.c82_ordered",
    "Verif.Wki.c82_not_missed",
    "Verif.Wki.c82_quiet",
    "Verif.Wki.c82_globals_stop",
    "Verif.Wki.c82_globals"
   ],
   "note": ""
  },
  {
   "property": "C83",
   "status": "proved",
   "theorems": [
    "Verif.Dl.c83_entries",
    "Verif.Dl.c83_variables",
    "Verif.Dl.c83_params",
    "Verif.Dl.c83_returns",
    "Verif.Dl.c83_no_returns",
    "Verif.Dl.c83_offers",
    "Verif.Dl.c83_sound",
    "Verif.Dl.c83_header",
    "Verif.Dl.c83_stops",
    "Verif.Dl.c83_excepted"
   ],
   "note": ""
  },
  {
   "property": "C84",
   "status": "proved",
   "theorems": [
    "Verif.Checks.c84_order",
    "Verif.Checks.c84_quiet",
    "Verif.Checks.c84_stops"
   ],
   "note": ""
  },
  {
   "property": "C85",
   "status": "proved",
   "theorems": [
    "Verif.Checks.c85_tables",
    "Verif.Checks.c85_asked",
    "Verif.Checks.c85_equations",
    "Verif.Checks.c85_algorithms"
   ],
   "note": ""
  },
  {
   "property": "C86",
   "status": "proved",
   "theorems": [
    "Verif.Objs.c86_attrs",
    "Verif.Objs.c86_item",
    "Verif.Objs.c86_begins",
    "Verif.Objs.c86_section",
    "Verif.Objs.c86_one_reading",
    "Verif.Objs.c86_about"
   ],
   "note": ""
  },
  {
   "property": "C87",
   "status": "proved",
   "theorems": [
    "Verif.Propsecs.c87_way",
    "Verif.Propsecs.c87_property",
    "Verif.Propsecs.c87_exists",
    "Verif.Propsecs.c87_constructor"
   ],
   "note": ""
  },
  {
   "property": "C88",
   "status": "proved",
   "theorems": [
    "Verif.Propsecs.c88_check",
    "Verif.Propsecs.c88_quiet"
   ],
   "note": ""
  },
  {
   "property": "C89",
   "status": "proved",
   "theorems": [
    "Verif.Facts.c89_put",
    "Verif.Facts.c89_count",
    "Verif.Facts.c89_subject",
    "Verif.Facts.c89_same",
    "Verif.Facts.c89_each",
    "Verif.Facts.c89_cell"
   ],
   "note": ""
  },
  {
   "property": "C90",
   "status": "proved",
   "theorems": [
    "Verif.Blocks.c90_block",
    "Verif.Blocks.c90_blocks",
    "Verif.Blocks.c90_own",
    "Verif.Blocks.c90_function"
   ],
   "note": ""
  },
  {
   "property": "C91",
   "status": "proved",
   "theorems": [
    "Verif.Tuples.c91_made",
    "Verif.Tuples.c91_new",
    "Verif.Tuples.c91_eq",
    "Verif.Tuples.c91_less",
    "Verif.Tuples.c91_fields",
    "Verif.Tuples.c91_read",
    "Verif.Tuples.c91_items",
    "Verif.Tuples.c91_repr",
    "Verif.Tuples.c91_shadowed"
   ],
   "note": ""
  },
  {
   "property": "C92",
   "status": "proved",
   "theorems": [
    "Verif.CodePoints.c92_start",
    "Verif.CodePoints.c92_continue",
    "Verif.CodePoints.c92_unknown",
    "Verif.CodePoints.c92_match",
    "Verif.CodePoints.c92_not",
    "Verif.CodePoints.c92_total",
    "Verif.CodePoints.c92_depth",
    "Verif.CodePoints.c92_loop"
   ],
   "note": ""
  },
  {
   "property": "C93",
   "status": "proved",
   "theorems": [
    "Verif.Dots.c93_sound",
    "Verif.Dots.c93_narrow",
    "Verif.Dots.c93_only",
    "Verif.Dots.c93_told",
    "Verif.Dots.c93_named",
    "Verif.Dots.c93_warn",
    "Verif.Dots.c93_slot",
    "Verif.Dots.c93_forgotten"
   ],
   "note": "c93_forgotten is a witness that the exception in c93_sound is needed."
  },
  {
   "property": "C94",
   "status": "proved",
   "theorems": [
    "Verif.Conds.c94_is",
    "Verif.Conds.c94_is_equal",
    "Verif.Conds.c94_is_narrow",
    "Verif.Conds.c94_same",
    "Verif.Conds.c94_distinct",
    "Verif.Conds.c94_both",
    "Verif.Conds.c94_neither",
    "Verif.Conds.c94_contains",
    "Verif.Conds.c94_is_unknown",
    "Verif.Conds.c94_contains_not"
   ],
   "note": "c94_is_unknown and c94_contains_not are witnesses for the two exceptions that the statement names."
  },
  {
   "property": "C95",
   "status": "proved",
   "theorems": [
    "Verif.Trees.c95_faithful",
    "Verif.Trees.c95_lines",
    "Verif.Trees.c95_prefix",
    "Verif.Trees.c95_nothing"
   ],
   "note": "c95_nothing shows that the hypothesis about the text of a missing node is needed."
  },
  {
   "property": "C96",
   "status": "proved",
   "theorems": [
    "Verif.Runs.c96_counted",
    "Verif.Runs.c96_refused",
    "Verif.Runs.c96_one_or_two",
    "Verif.Runs.c96_totals",
    "Verif.Runs.c96_bounds",
    "Verif.Runs.c96_module"
   ],
   "note": "c96_module is a departure: a module is counted for two runs. The patterns for names of files are parameters."
  },
  {
   "property": "C97",
   "status": "proved",
   "theorems": [
    "Verif.Recs.c97_fields",
    "Verif.Recs.c97_arguments",
    "Verif.Recs.c97_article",
    "Verif.Recs.c97_names",
    "Verif.Recs.c97_plain",
    "Verif.Recs.c97_later",
    "Verif.Recs.c97_schema",
    "Verif.Recs.c97_undeclared",
    "Verif.Recs.c97_incomplete"
   ],
   "note": "c97_incomplete is a departure: fields can be missing or repeated."
  },
  {
   "property": "C98",
   "status": "proved",
   "theorems": [
    "Verif.Unesc.c98_meaning",
    "Verif.Unesc.c98_unique",
    "Verif.Unesc.c98_spelling",
    "Verif.Unesc.c98_exception",
    "Verif.Unesc.c98_too_large"
   ],
   "note": "Digits of other scripts are taken for hexadecimal digits; an example shows this. Nothing in the repository calls the method at this commit."
  },
  {
   "property": "C99",
   "status": "proved",
   "theorems": [
    "Verif.Fieldsets.c99_nearest",
    "Verif.Fieldsets.c99_table",
    "Verif.Fieldsets.c99_tweak",
    "Verif.Fieldsets.c99_find",
    "Verif.Fieldsets.c99_twice"
   ],
   "note": "The conversion of natures to types is a parameter. The names of fields are assumed to be not empty and without commas."
  },
  {
   "property": "C100",
   "status": "proved",
   "theorems": [
    "Verif.Suite.c100_verdict",
    "Verif.Suite.c100_totals",
    "Verif.Suite.c100_other",
    "Verif.Suite.c100_absolute",
    "Verif.Suite.c100_calls"
   ],
   "note": "c100_absolute and c100_calls are departures: a file given by its absolute path that cannot be parsed ends in an exception, and the number of parser calls leaves out those that fail."
  },
  {
   "property": "C101",
   "status": "proved",
   "theorems": [
    "Verif.Exprs.c101_known",
    "Verif.Exprs.c101_sound",
    "Verif.Exprs.c101_passed",
    "Verif.Exprs.c101_unmixed",
    "Verif.Exprs.c101_messages",
    "Verif.Exprs.c101_exempt",
    "Verif.Exprs.c101_total",
    "Verif.Exprs.c101_bracket"
   ],
   "note": "Relative to the functions for the productions (s_expr), which are parameters and are assumed to be right when they give no message."
  },
  {
   "property": "C102",
   "status": "proved",
   "theorems": [
    "Verif.Lookups.c102_load",
    "Verif.Lookups.c102_answers",
    "Verif.Lookups.c102_ends",
    "Verif.Lookups.c102_unused",
    "Verif.Lookups.c102_report"
   ],
   "note": "The values of the attributes are not looked into."
  },
  {
   "property": "C103",
   "status": "proved",
   "theorems": [
    "Verif.Numval.c103_right",
    "Verif.Numval.c103_when",
    "Verif.Numval.c103_gap",
    "Verif.Numval.c103_modulo",
    "Verif.Numval.c103_modulo_zero",
    "Verif.Numval.c103_compare"
   ],
   "note": "For mathematical values that are integers in Python. c103_gap is a departure: there is an exception for 2^53 - 1 and for negative integers, although they are Numbers."
  },
  {
   "property": "C104",
   "status": "proved",
   "theorems": [
    "Verif.Typetree.c104_named",
    "Verif.Typetree.c104_schemas",
    "Verif.Typetree.c104_built",
    "Verif.Typetree.c104_built_schemas"
   ],
   "note": ""
  },
  {
   "property": "C105",
   "status": "proved",
   "theorems": [
    "Verif.Reduce.c105_matched",
    "Verif.Reduce.c105_reduced",
    "Verif.Reduce.c105_extents",
    "Verif.Reduce.c105_is_a"
   ],
   "note": ""
  }
 ]
}
