# Formal model of ecmaspeak-py: design

## Method

The Python code in /repo is modelled, function by function, as small total Lean 4
functions over lists, naturals, integers, options and inductive trees.

* A failing `assert`, an uncaught exception and `sys.exit` are values: the modelled
  function returns `none`/`Except.error`. A claim "does X or fails" covers that branch.
* `while` loops and worklists are structural or well-founded recursions, or take a fuel
  argument; when there is fuel, a theorem says that a stated amount of fuel is enough,
  or the claim is about every amount of fuel with which the function gives a result.
* Module-global mutable state is threaded explicitly as a state structure.
* Python `dict` is an insertion-ordered association list or a function, `set` a list
  without duplicates or a predicate; where iteration order is observable it is modelled.
* Regular expressions, file output and external parsers are parameters or are
  abstracted; each is listed under "Modelled and not modelled".

Layout: `lean/Verif/<Area>/Model.lean` (definitions, each with the /repo lines it models),
`Spec.lean` (small independent specification), `*Lemmas.lean` and other files (proof work),
`Props.lean` (the property theorems, with non-vacuity `example`s beside them).
Property theorems are named `cNN_...`. A theorem named `..._witness` shows, on a concrete
input, that the program does *not* have some property one might expect, and so why
the theorem beside it has the hypothesis it has.

Where the code does not have the property as first listed, the failing case is a
`_witness` theorem, the property is proved under the hypothesis that excludes it, and the case is
listed under "Where the program departs from the property".

## Plan per property

| id | modelled | how proved |
|----|----------|-----------|
| C01 | `install_spec_text`, `convert_posn_to_linecol` (bisection with its assertions) | induction on hi-lo; invariant np[lo] < posn <= np[hi]; spec counts newlines directly |
| C02 | `write_spec_with_replacements` incl. the sort | sortedness; refinement to a per-position description of the output |
| C03 | `decode_entities` as five sequential global replacements | induction on the string; encoder in the spec |
| C04 | class `DL` as a state machine | invariant over call sequences; grammar of complete lists in the spec |
| C05 | `msg_at_posn*`, `write_spec_with_extras`, `prep_for_line_info` | permutation + sortedness of the written listing |
| C06, C07 | `Graph.find_strongly_connected_components`, `establish_dependency_levels` | DFS invariant; spec is reachability |
| C08 | `DFA.Automaton`, `State._close` | worklist invariant; spec is the inductive item-reachability relation |
| C09 | `DecoratedFuncDict` | invariant over operation sequences |
| C10 | `Tokenizer` with patterns as match-length functions | induction on remaining text |
| C11 | `NodeGrammar.scan_section` with atoms as predicates | induction on children |
| C12, C13 | `HTML._parse` after lexing: the open-element stack and extents | invariant on the open-node chain |
| C14-C18 | `static_types`: named (hierarchy), list, record, procedure and union types, subtype test, union, split | denotational semantics over arbitrary interpretations |
| C19 | pseudocode `Tokenizer.tokenize` indentation logic | invariant over lines |
| C20 | `convert_grammar_string_to_productions` | list induction |
| C21 | parameter settings/guards/arguments | list induction, counting |
| C22-C24 | `_Earley.run` with lookahead constraints, tree building | invariant: every item is a valid Earley item with a valid partial tree; completeness by induction on derivations |
| C25 | ASI decision and insertion into the token list | case analysis, induction on the stream |
| C26 | `simple_parse.attempt` with fuel | soundness by induction on fuel against an inductive PEG relation |
| C27, C28 | RHS matching and option bits | list induction; counterexample for completeness |
| C29 | worklist and DFS reachability | invariant; spec is reflexive-transitive closure |
| C30 | `records` schema registry | invariant over histories |
| C31, C32 | `merge_propAttrs`, `apply_defaults_for_property`, `get_creation_rank` | direct, well-founded induction |
| C33-C35 | `Env`, `envs_or`, `envs_and`, `with_type_test`, `tc_logical`, `tc_loop` | on top of the C14-C18 semantics |
| C36 | `Frame` contours | invariant over operation sequences; spec is a stack of scopes given by the history of calls |
| C37 | early-error traversal | refinement to a relation on parse trees that says which rules apply to which node |
| C38 | section tree and numbering | tree induction; spec by paths in the document |
| C39 | `check_vars_in_anode` tabulation | list induction; spec by paths in the syntax tree |
| C40 | `mov` block move | list lemmas |
| C41 | `tc_nonvalue`, `tc_proc`, `proc_add_return` on a language of commands | big-step semantics of the commands; soundness by induction on executions |
| C42, C43 | `EXEC`/`EACH` on commands, conditions and expressions, `execute_alg_defn`, `Frame.run` | refinement of the mutable interpreter to a big-step semantics without mutable state |
| C44 | `convert_parameter_listing_to_params` | round trip with a renderer; content of accepted texts |
| C45 | `apply_pipeline` | set of reachable results, induction on the steps |
| C46 | `each_item_in_left_recursive_list` | tree induction |
| C47 | `check_sdo_coverage`, the queue of `analyze_sdo_coverage_info`, `each_opt_combo`, `reduce_rhs` | invariant of the queue against an inductive relation of needed nonterminals; then parse trees against the report |
| C48 | the loop of `execute_sdo_invocation`, chain productions of parse nodes | induction on the tree; spec is a chain relation |
| C49 | `parse_frontmatter` on lines; groups of lines by indentation; flow sequences | fuel is enough; spec is an inductive grammar of collections, entries and values; both directions by induction (mutual rule induction for one, on fuel for the other) |
| C50 | `_validate` over the tree, with tables as parameters; runs of spaces, matching of entities, attributes, children, content | induction on texts with an invariant for what is being skipped; induction on the tree; spec is a relation `Fault` with one clause for each message |
| C51 | `check_ids` and `check_dfns` on the trees of area HTML, with the dict of ids, the set of old ids and the messages as state | invariant over the visit in document order (what the dict holds is the last declaration); spec is a relation `Fault` with one clause for each message and `Fatal` with one for each way to stop |
| C52 | `analyze_table` and `quasi_ecmarkdown` on the trees of area HTML | spec is relational (`Caption`, `Cells`, `Columns`, `Maps`, `IsTable`; `Means` for texts); the loop has the header as invariant; both directions by induction on rows, cells and texts |
| C53 | `do_STA_on_dependency_clusters`, `tc_alg`, `tc_header`, `make_env`, `change_declared_type`, `summarize_headers` over any analysis of bodies | every part of the analysis extends the state in one way (`Ext`: what it may touch, chains of changes, how often); a pass that changes nothing reports `Finds`; induction over clusters with a frame argument; the graph of calls gives the order |
| C54 | `each_step_ref`, `find_deepest_node_covering_posn`, `closest_containing_section`, `check_step_references` over the trees of `HTML.parse` | the scan finds all places and matches never overlap; each pattern is equivalent to a form of text; in nested trees the search gives the node that holds the offset (induction over the tree) and sections on its path are those around the offset; the report is read back |
| C55 | `process_defining_emu_grammars` with both passes over the productions, `get_appropriate_def_occ`, `make_grammars`, `do_left_right_stuff` | one invariant on the table for both passes, by the number of productions the passes have seen; messages compared production by production with the faults of the document |
| C56 | `check_non_defining_prodns`, with `_rhs_items`, `reduce_rhs` and the messages of `u_rhs_matches_d_rhs_`, on the table of C55 | the greedy matching refined to a relation with steps; the list of matches is the increasing list of all of them; messages by membership and order; joined words are recovered from the text |
| C57 | `check_nonterminal_refs` with its three regular expressions as functions on characters, and `check_emu_prodrefs`, on the table of C55 | the scan refined to a property that determines the list of references; the patterns refined to relations with one solution; loops by induction with what has been handled |
| C58 | `get_puk_set`, the grammar of the coverage report, the conditions with `<emu-grammar>`, unit derivation, counting and containment, on the models of C47, C48, C55 and C56 | keys of elements shown to be those of the instances of what they show; walks down the tree by induction on size; places of a tree against its preorder traversal; the rest by composition |
| C59 | `analyze_static_dependencies` with its searches and fixed point, `check_the_sdo_name`, `check_optional_parameters` | traversal shown to list the places of the trees in order; searches by C29 (the one for static semantics by simulation); the fixed point by a count of what is left; sorted listings are unique, so the report is determined |
| C60 | `connect_anodes_to_hnodes`, `annotate_invocations`, `exes_in_exlist(_opt)` | the model of the annotation against an inductive specification with one rule for each form; the traversals list the places in order, so the k-th of one list goes to the k-th of the other; trees with the same nodes at all places are equal |
| C61 | `check_for_unbalanced_ifs`, `each_if_arm`, `check_value_descriptions`, `check_val_desc_disjunction` | the checks against inductive specifications of the arms and of the words; `os.path.commonprefix` on the least and the greatest string gives the longest prefix of all; the walk with the nodes above against places in the tree |
| C62 | `ensure_alg`, `AlgHeader.finish_initialization`, `check_alg_consistency` | the registry as a fold over declarations against a table that is described by the mentions; headers and reports against inductive specifications; the replacement of placeholders leaves none, by induction over the text |
| C63 | `check_indentation` | the recursion over the tree against an inductive notion of the elements that are looked at; the grouping of lines against reading them with a stack of open levels, by induction with fuel; for documents that C12's parser returns |
| C64 | `check_for_extra_blank_lines`, `check_trailing_whitespace`, `check_characters` | the regular expressions as scans with a count of characters to skip, against positions of the text |
| C65 | `resolve_focus_reference`, `s_resolve_focus_reference` | the map of a node against an inductive notion of what the occurrences in a right-hand side stand for (trees of C44's grammars); the analysis against occurrences; both linked by what a heading shows of an instance |
| C66 | structured headers, `check_id` | the title against a reading of its list of parameters (C53's reader); the check of ids as a pipeline of functions on words, against the id written out for each kind |
| C67 | `check_section_title`, `_check_aoids`, `_check_section_order` | searches for a pattern against the first place with a property of the text; the loop over children against the last property before a place; strictly increasing keys |
| C68 | `tc_args` | induction over the parameters: the messages against what each parameter deserves, where values are compared in an interpretation with a value for each leaf; soundness for compound types from C14 and C18 |
| C69 | `ensure_expr_is_of_type`, `assert_expr_is_of_type`, `ensure_A_can_be_element_of_list_B` | decision stated outright; appending against a store in which the list has one more element |
| C70 | `type_arithmetic` with its table, and `s_expr` of arithmetic, literals and functions | values in an arbitrary ordered field; table checked against a table of classes of numbers, which is proved right; induction over expressions |
| C71 | the table of comparisons, `s_cond` of comparisons | each entry against what classes of numbers can be compared and how; branches by C33 |
| C72 | `s_cond` of chains and intervals | from C70 and narrowing |
| C73 | `d_exec` of arithmetic and comparisons, `ES_Mathnum` | induction over expressions; Python's `%` against ECMA-262's definition of modulo |
| C74 | `get_pdn` and `normalize_property_path` | phrases and paths as syntax with a text and a name; each pattern characterized; patterns shown to exclude each other; induction over paths |
| C75 | `split_prop_path`, `confirm_this_property` | names of properties as an inductive relation; induction over paths |
| C76 | `handle_completion_record_shorthand`, `s_dot_field`, `type_of_field_named` | the splits of a type characterized part by part; soundness with respect to what `?` and `!` do to a store; messages as a set |
| C77 | `proc_add_return`, `Throw`, `IfAbruptCloseIterator`, `IfAbruptRejectPromise` | what is recorded, and the environment, sound with respect to stores; wrapping by the splits of C76 |
| C78 | `_set_section_kind` and its handlers, `ensure_every_emu_alg_in_section_is_parsed` | the scan of C11 characterized block by block, by induction over the stretches taken, with what is before carried along; the other handlers by cases |
| C79 | the patterns for titles in `_handle_function_section`, `_handle_other_section` and `_handle_changes_section`, the branches of `check_id` | regular expressions by derivatives, shown equal to their languages; each pattern then read as a written form, and forms shown to exclude each other where order does not matter; the scan of C11 for changes |
| C80 | `is_strict`, `begins_with_a_DP_that_contains_a_USD`, `each_item_in_left_recursive_list`, `unit_derives_a`, the nesting and containing conditions | a place is a tree and a path, with the places of the covering nodes after it; induction on paths and chains against a relational notion of directives and bodies |
| C81 | `check_header_against_prose`, `extract_info_from_preamble`, `ExtractionRules.apply`, the two lists of rules, `compare_to_header` | rules as functions from texts to facts and what is left; relations for the forms of sentences, for breaking, replacing, and mentioning; induction on texts and lists |
| C82 | `each_row_in_wki_table`, `check_references_to_intrinsics`, `check_globals` | tables, texts and sections as lists; relations for correct rows, for references from the left and for differences; induction on rows and texts |
| C83 | the `dl` in `_handle_structured_header`, `is_a_sub_of` | the list as nodes, the return type as a tree, the table of wordings as regular expressions; relations for correct lists, offered types and messages per sentence; induction on nodes, trees and sentences |
| C84 | `check_order_of_RHSs_within_each_SDO_clause` | sections as lists of grammars and right-hand sides with numbers; a relation for messages between neighbours; induction on the sequence, with transitivity for the whole order |
| C85 | `check_tables`, `check_emu_eqn_coverage`, `check_emu_alg_coverage` | tables with caption, header and cells; a relation for what a caption asks; case analysis on captions and induction on tables |
| C86 | `extract_intrinsic_info_from_p_ul_section`, `attr_string_to_dict` | titles, paragraphs and items as texts; a relation for what each sentence says, with sentences given as lists of parts; the patterns are compared with it one by one, and shown not to overlap where they say different things |
| C87 | `extract_intrinsic_info`, `extract_intrinsic_info_from_property_section`, `extract_intrinsic_info_from_CallConstruct_section` | sections as records of texts; relations for what titles and sentences say; the result is compared with them in both directions |
| C88 | `check_this_function` | the groups of the match as a record; a relation for each of the two messages |
| C89 | `section_put_fact` | facts as values of a datatype with one constructor for each verb; relations for replacement, for what refers to an object (from C74) and for what is noted; induction over the names and the attributes |
| C90 | the functions for the patterns in `ispl_units`, `section_this_property_has_attributes`, `section_defines_a_function_via` | a block is the function that is called and the groups it uses; a relation for what each says; induction over the blocks |
| C91 | `mynamedtuple` | the class that results from the text; what Python does with the values of the fields is a parameter, of which only what it does with strings is assumed; induction over the tuples |
| C92 | `unicode_character_has_property`, `pychar_matches_lexical_nonterminal`, `pychar_matches_rhs` and the condition that calls them | the calls with a bound on their depth; an inductive relation for derivations; induction over the depth |
| C93 | `s_expr` of `{var}.{DSBN}` and `{DOTTING}.{DSBN}`, and `tb_for_object_with_slot` | the loop over the parts of the type with operations on types as parameters; a meaning of types as sets of values; induction over the parts |
| C94 | `s_cond` of the conditions that compare values | the functions with operations on environments as parameters; states, and a relation for when an environment is right for a state; case analysis, and induction over the descriptions |
| C95 | `print_tree` | a recursive function to lists of lines; injectivity by mutual induction over trees, lists of children and covered trees, for lines followed by anything that cannot be taken for a part of the tree |
| C96 | `test_one`, `test_all_in_dir` | the finding of the two markers, the checks of the frontmatter as a decision that is shown to be that of a specification, and the walk over the directories with the two counters, by mutual induction over entries |
| C97 | the record constructor, `get_fields`, `exes_in_exlist` | the two loops over the fields, with the checking of one expression and the union of environments as parameters that are assumed to be right; induction over the fields |
| C98 | `replace_backslashUniEscapeSeqs` | texts as lists of code points; the pattern as a function that gives the match at a position, shown to be complete for an inductive specification of escape sequences; induction over the length |
| C99 | `process_declared_record_type_info`, `find_record_types_with_fields` | dicts as lists of items; induction over the chain of declarations; sorting and joining of names is shown to be injective up to order |
| C100 | `test_one`, `test_all_in_dir` of test_parser.py | the parser and the checker of early errors are parameters; the verdict is compared with an inductive specification of what comes of a text and what is expected; induction over the names |
| C101 | `tc_expr`, `type_bracket_for` and `convert_nature_node_to_type` | the function for the production, the types and their splitting are parameters; soundness relative to values and stores, and exactly when each warning is given |
| C102 | `lookup_for_prod`, `report_unused_entries` and the table `class_for_prod_str_` | on the model of `DecoratedFuncDict` of C09; induction over the entries and over the calls |
| C103 | `the_Number_value_for`, `EL_Number`, `ES_Mathnum.compare` and `__mod__` | the set of doubles is written down as integers in units of 2^-1074; nearness is proved for all integers |
| C104 | `TNode`, `_traverse`, `_traverse_record_schema` | the table of nodes as a list; mutual induction over trees and lists of trees, against an inductive relation of paths |
| C105 | `matcher_for_gparse`, `reducer`, `ANode.is_a` | an inductive relation for all that a parser can make by matching and reducing, in any order and with any productions; induction over it |

## Trusted base

* Lean 4.33.0's kernel. No axioms are added. Each theorem depends at most on `propext`,
  `Classical.choice` and `Quot.sound`; the table at the end lists the axioms of every theorem named in MANIFEST.json.
  No `sorry`, `native_decide`, `bv_decide`, `implemented_by` or `unsafe` is used; examples use `decide`, `rfl` or
  `decide +kernel`, which the kernel evaluates.
* Mathlib is used only in the area Arith (ordered fields, `Int.floor`, `linarith`, `norm_num`, `ring`); everything it gives is checked by the kernel. All other areas use Lean's core library only.
* The reading of the Python source recorded in the comments of the `Model.lean` files.
* Python itself is not modelled: integers are unbounded in both; strings are lists of characters or `String`; the recursion limit, memory and I/O errors are ignored.

### Modelled and not modelled, by area

* **Shared** (shared.py). Modelled: positions, messages, replacements, entities, `DL`. Not: the files written, colours and headings of the listing.
* **Graph** (Graph.py). Modelled: SCC search and levels for a fresh graph. Not: the printing functions; the global list of clusters that survives to a second Graph object.
* **Util** (DecoratedFuncDict.py, Tokenizer/Pseudocode_Parser helper, NodeGrammar.py). Patterns are functions giving match lengths, atoms are predicates.
* **DFA** (DFA.py). Items, closure and transitions, with grammar as a parameter.
* **HTML** (HTML.py). Modelled: `_parse` after the lexer regexes. Not: `_validate`, attribute syntax.
* **Types** (static_types.py). Modelled: the hierarchy as an arbitrary tree of names, list, record, procedure and union types, the tests and operations. Not: parsing of type texts; the particular hierarchy (it is a parameter).
* **Pseudo** (Pseudocode_Parser.py). Modelled: tokenization of lines and conversion of the grammar file. The regexes of the lexer are patterns matched without backtracking (exact for the patterns used); `\w` is a parameter. Not: the LR parser, which is not part of the repository.
* **Earley** (es_parser.py). Modelled: the Earley engine, parameters, guards, lookahead constraints, ASI, text positions, trees. Parse nodes are compared by content where Python compares by identity. `int(text, 16)` is modelled on plain hex digits only. Bounds on repeated parses are not modelled.
* **Gram** (emu_grammars.py). Modelled: simple_parse, RHS matching, option bits, reachability, annex A. Not: the error log of simple_parse, `L-xxx` counters; `indent` of one-line grammars is an integer.
* **Records**, **Intrin** (records.py, intrinsics.py). Table row and column keys are structured; default length/name look-ups are parameters; dict order is not modelled where functions are used.
* **Env** (pseudocode_semantics.py). Keys of environments are variables and `*return*`. Atomic expressions, conditions and value descriptions are parameters with a correctness assumption (`AtomsOk`). Not: `assoc_productions`, warnings about setting parameters, tests on the source text in `IF_OTHER` and `while`, exemption of `not_returned`. Soundness (C41) is for algorithms whose results are not wrapped in Completion Records, and types given by names of the hierarchy. In executions, an element of a for-each loop is drawn at the loop head; variables first set in a loop body are unset again at the end of the body.
* **Exec** (pseudocode_semantics.py). Primitive expressions, conditions and operations are parameters which do not modify the state. Not: mutation of Lists, "Attempt to parse", `_NcapturingParens_`, focus maps, checks of the kind of a result. `assert rframe is frame` is modelled by the length of the stack. `run` with an empty list of anodes would raise UnboundLocalError.
* **Early** (pseudocode_semantics.py). Rules are programs that may report, ask for covered nodes, or make nested calls; `visited` is a ghost field; parse is a parameter; nodes are compared by ids.
* **Sections** (Section.py). Modelled: the section tree, numbers, parameter listings, pipelines, left-recursive lists. Not: the assertion that a section has no inline children, the "section is empty" message, section kinds and headers. `\w` and `strip()` are restricted to ASCII word characters and spaces.
* **Vars** (Pseudocode.py). Modelled: the tabulation and the messages. Not: the early returns that look at the text before the algorithm.
* **Sdo** (Pseudocode.py, pseudocode_semantics.py, es_parser.py). Modelled: the map of coverage, the queue, the messages, chain productions and dispatch. Not: how the nonterminals of the invocations are found, the table of exceptions (a parameter), the order of the messages about unused rules, the stand-in results after 'SPEC BUG'. A nonterminal that is defined only in annex B is skipped by the check without a message; the trees of C47 have none.
* **Front** (test262.py). Modelled: all of `parse_frontmatter`; `\w` and `isspace` on characters are parameters. Not: what is done with the values, the splitting of the file into sections.
* **Validate** (HTML.py). Modelled: all of `_validate`, on the trees of area HTML. Tables (`element_info`, `attribute_info`, entities) are parameters: a pattern is what it matches. Names of children are a list rather than a string with semicolons. Not: the wording and order of names in messages.
* **Ids** (analyze_spec.py). Modelled: all of `check_ids` and `check_dfns`. Parameters: the ids found in the text of an `emu-alg`, the ids that fit an aoid (`possibles`, `kebab`). Not: sorting and writing of the file of ids.
* **Tables** (emu_tables.py). Modelled: all of it. Parameters: white space, `int()`. Not: `check_tables` (analyze_spec.py), which compares captions and headers with fixed texts.
* **Sta** (pseudocode_semantics.py 44-45, 100-204, 373-380, 525-588, 1281-1367, 1428-1552). Modelled: the passes over the clusters, the comparison of the environments, the changes of declared types, summaries (with the live view of a single header's parameters), messages. Parameters: `tc_proc` (errors and final environment from the declared types seen), the subtype test, unions, the split at completion records. Not: how headers get their written types (tweaks, optional parameters), printing, `write_modified_spec`. Messages are one list instead of lists at nodes.
* **StepRefs** (Pseudocode.py 35-129; HTML.py 218-219, 254-263). Modelled: the scan for references, their lines, the search for the node, the patterns (with `re.IGNORECASE`), the lines of the steps, the report. Parameters: `\w`, `str.isspace`, `node_with_id_` with ancestors. Simplified: empty lines and rules of the report are left out; sections are told apart by where they start, which C54 justifies for parsed documents.
* **Defs** (emu_grammars.py 616-735, 812-920, 1714-1808). Modelled: both passes over the defining productions, the table of nonterminals, augmentation, the four grammars, goal symbols and named terminals. Given: trees of productions in the shape of the metagrammar (parsing is C26). Left out: the files and the log.
* **Uses** (emu_grammars.py 153-264, 917-1220). Modelled: the items and the reduced form of right-hand sides, the check of every production that doesn't define, the links and the production use keys. Given: trees of productions as for Defs. Left out: the log; which of the three kinds a description of characters is.
* **Refs** (emu_grammars.py 1399-1433, 1659-1710). Modelled: all of both functions. Parameter: which characters are of words. Left out: the log, and the comparison that is switched off.
* **Heads** (Section.py 381-382, 532-541, 603-607; Pseudocode.py 1334-1346, 1510-1515; pseudocode_semantics.py 4571-4628, 4795-4806; es_parser.py 2074-2106). Modelled: what is listed; it joins the areas Defs, Uses and Sdo. Left out: the effect of a condition on the focus map, the warnings on empty sets, extents of nodes.
* **Deps** (Pseudocode.py 477-503, 837-1318; Pseudocode_Parser.py 545-566). Modelled: what is listed, with the order of sets as a parameter; regular expression of line 1217 as a function on characters. Left out: `annotate_invocations` (its result is an attribute of nodes), the layout of the files.
* **Annot** (Pseudocode.py 199-204, 264-312, 314-503). Modelled: the two functions on the tree that the parser returned; the result is a tree of the area Deps. Simplified: children that are strings are left out (only terminals have them); the arguments are in the annotation of a node, and not kept in the tree, as C59 counts them from the syntax.
* **Style** (Pseudocode.py 625-832). Modelled: both checks, on the trees of the parser; `os.path.commonprefix` is modelled from its source in the Python library. Parameters: the characters of `\w` and those that `rstrip` removes. Simplified: a message that is written before the program stops is left out.
* **Algs** (algos.py 88-104, 106-159, 189-233, 284-454). Modelled: the registration of algorithms and headers, the completion of headers and the check of their consistency; of a section its number, its title and the titles of the sections around it. Simplified: of the node for the return value only whether there is one; a message that is written before the program stops is left out.
* **Layout** (analyze_spec.py 103-334). Modelled: the four checks of the layout of the text. Simplified: `str.isspace` is a parameter of which only spaces and newlines matter; the kinds of elements are a parameter; the set-aside of the children of the block and inline levels is computed from the kinds; a message that is written before the program stops is left out.
* **Focus** (pseudocode_semantics.py 2966-2992, 3125-3243, 4566-4592, 6244-6435). Modelled: the map of known nodes of a frame, references to nonterminals in the execution and in the type analysis. Simplified: identity of nodes is structural equality; the type of a reference is only whether it includes `T_not_in_node`; the annotation of headings is the list of left- and right-hand sides.
* **Titles** (Section.py 855-950, 1697-1737, 1755-2291, 3628-3708). Modelled: the title made by a structured header, the check of the id for host-defined, implementation-defined, numeric, environment-record and internal methods, the check of titles, of `aoid` and of the order of properties. Not modelled: the ids of the other kinds. Characters: `\w`, `[a-z]` and `lower()` are ASCII.
* **Calls** (pseudocode_semantics.py 783-907, 2362-2442). Modelled: `assert_expr_is_of_type`, `ensure_expr_is_of_type`, `ensure_A_can_be_element_of_list_B`, `with_expr_type_replaced`, `tc_args`. The static types of expressions other than variables are not kept in environments; the analysis of such an expression is a parameter, as in Env. Not modelled: hints in messages.
* **Arith** (pseudocode_semantics.py 1033-1058, 6991-7103, 7177-7400, 7424-7430, 7441-7685, 7696-7710, 7738-7743, 7768-7789, 7802-7912, 7931-7971, 8262-8353, 9237-9273, 9492-9496). Modelled: arithmetic, its table, comparisons with their table, chains, intervals, execution on ints. It uses Mathlib's ordered fields, `Int.floor`, and tactics `linarith`, `norm_num`, `ring`. Not modelled: floats in execution; `7402-7408` (a variant of powers); `scf`; the kinds of literals that the tokenizer tells apart. The order in which pairs of types are visited is that of `L.ord`, any order.
* **Paths** (intrinsics.py 18-134, Section.py 3350-3391, 3404-3412). Modelled: all of these functions, their regular expressions as functions on texts. Simplified: texts have no newlines, `\w` and `upper` are those of ASCII. Not modelled: `section_put_fact`, which calls them.
* **Unwrap** (pseudocode_semantics.py 1632-1693, 6624-6645, 6683-6797, 11413-11420, 11834-11856, 14996-15007; static_types.py 458-512, 552-562, 1208). Modelled: `?` and `!` with all their messages, `Throw`, the two commands for abrupt completions, fields of Completion Records. Simplified: the special narrowing after `RequireInternalSlot` is for a variable; `tb_for_object_with_slot` is a parameter; the field `[[Type]]` is only read where listed. Not modelled: types of expressions other than variables in environments.
* **Bodies** (Section.py 199-263, 275-379, 386-607, 611-733, 737-852, 869-896, 1202-1311, 1391-1464; Pseudocode.py 141-143). Modelled: which handler takes a section, which blocks it makes definitions of, and what is parsed. Parameters: children and descendants of nodes, the classification of titles, the units for changes, the heading as parsed. Simplified: a paragraph's start tag has no attributes; `\w` and white space are ASCII; texts have no newlines where the regular expression has a dot. Not modelled: registration of methods of records, `ensure_alg`, equations, the tree that is got by parsing.
* **Kinds** (Section.py 627-659, 1202-1306, 1320-1379, 1528-1691, 1766-2235; NodeGrammar.py 38-46, 150). Modelled: the regular expressions, what kind and header they lead to, and which branch of `check_id` is taken. Simplified: `\\w` is ASCII; groups are recovered from the only parenthesis in a title. Not modelled: that records of the kind named exist (Section.py 661-669).
* **Strict** (pseudocode_semantics.py 4170-4188, 4845-4859, 4930-4962, 13012-13180, 13233-13275; es_parser.py 2081-2094). Modelled: what is asked of a parse node about what is around it. Simplified: the production of a property definition list is told by its number of children; `PropName` and the test for the form are parameters. Not modelled: how covering nodes come about (C35).
* **Preambles** (function_preambles.py 22-495). Modelled: the rules for sentences and paragraphs, what is collected from them, and the comparison with the head. Simplified: `\\w` and `lower` are ASCII; the nodes of the preamble are given by name and stripped text. Not modelled: how the text of a rule is parsed (144-229), counts of rules, `note_unused_rules`, and the comparison of result types, which has no rule to feed it.
* **Wki** (intrinsics.py 138-175, 795-817; Section.py 2377-2400; analyze_spec.py 623-642). Modelled: the rows of the tables of well-known intrinsics, references to intrinsics in texts, the comparison with the section about the global object. Simplified: `\\w` is ASCII; literals are given by position and text. Not modelled: the facts that rows are turned into (C31 and C74 have some of what is done with facts).
* **Dl** (Section.py 952-1181). Modelled: reading the list of a structured header, and the checks of the description. Simplified: `\\w` is ASCII; names of elements have no semicolons. Not modelled: parsing the text of `for`.
* **Checks** (emu_grammars.py 1360-1395; analyze_spec.py 567-619; Pseudocode.py 208-259). Modelled: the order of right-hand sides within a section, the forms of tables and which cells are parsed, whether equations and algorithms were parsed. Not modelled here: the analysis of tables (C52) and parsing.
* **Objs** (Section.py 2409-2733, 3395-3403). Modelled: the patterns for the title, the first paragraph, the items of the list and the blocks that follow, the order in which they are tried, the greedy reading of attributes, and the facts that are put. `\w` is restricted to ASCII. Not modelled here: what `put_fact` does with a fact, and the tables of well-known intrinsics (C82).
* **Propsecs** (Section.py 2359-2373, 2737-2939, 3307-3347). Modelled: the dispatch, the loop over enclosing sections, the property and the other names of its container, the test for functions that are defined elsewhere, sections about calls of constructors, and the check of references to the function. `\w` is restricted to ASCII, `\S` is a parameter, and C87 is stated for titles on one line. The exemption for `Each` uses the second group of the pattern, whatever that group is in the alternative that matched. Not modelled: the scan of the blocks for sentences.
* **Facts** (Section.py 3441-3588). Modelled: which variable a title has, the replacements in their order, the choice between values and references, the names, the check of other names, and how a name is taken from a cell of the table. Not modelled: how the section and the table with the names are found, and that the fact is also kept in its original form. A failed assertion after some names have been done leaves what was noted for them; the model says just that it stops.
* **Blocks** (Section.py 2987-3272, 3417-3437). Modelled: the bodies of the functions that are called for the patterns, and the order of the calls. Not modelled: the patterns themselves, that is, which function is called for which text (how one is chosen is C11), and the message for a block that no pattern matches, after which the rest is not read. What is then done with the facts is C89.
* **Tuples** (mynamedtuple.py). Modelled: the splitting of the names of the fields, the class with its arguments, template and properties, `__new__`, `__repr__`, `items`, and the inherited `==` and `<`. Not modelled: the text of the class and its execution (which names are identifiers is a parameter), arguments given by name, hashes, and names that begin with two underscores.
* **CodePoints** (pseudocode_semantics.py 3630-3692, 4123-4155, 4482-4487). Modelled: the two properties, the kinds of items, the loop over the right-hand sides, and the recursion. Parameters: the categories, the sets of unicode_contributory_properties.py, and the grammar. Not modelled: the evaluation of the operand, and the parsing of the grammar (other areas).
* **Dots** (pseudocode_semantics.py 2746-2767, 10992-11197). Modelled: the split of the type, the loop over its parts with all kinds of parts, the declarations of slots and methods, and the kinds of message lines. Parameters: the operations on types and the tables of declarations. `Means` says what is assumed of them: the operations are right for sets of values (proved for a model of static_types.py in the Types area), declarations are true, and object types do not overlap unless one is in the other. Not modelled: the texts of the messages.
* **Conds** (pseudocode_semantics.py 8214-8260, 8357-8380, 8472-8485, 10605-10621, 11266-11293). Modelled: which environments are narrowed and which one is for true. Parameters: `tc_expr`, `with_expr_type_narrowed`, `with_type_test`, `envs_and` and `envs_or` (models of them are in the Env area), with what they mean in `Means`. Not modelled: `check_comparison` (in the Arith area), which only gives messages.
* **Trees** (shared.py 99-132). Modelled: all of `print_tree`. Parameters: what `tree_slug()` gives for a node is part of the tree. Not modelled: the writing to the file.
* **Runs** (test262.py 16-218). Modelled: `test_one`, `test_all_in_dir` and the counters. Parameters: the patterns for names, `\\w` and white space. Simplified: the entries of a directory are taken in the order that sorting gives. Not modelled: the messages about unknown keys and flags, `main` and its arguments.
* **Recs** (pseudocode_semantics.py 2016-2040, 2460-2486 and 10940-10983). Modelled: `s_expr` of the record constructor, `get_fields`, `exes_in_exlist` and `exes_in_exlist_opt`. Parameters: `tc_expr`, `ensure_expr_is_of_type`, `envs_or` and the table of the schemas.
* **Unesc** (pseudocode_semantics.py 3730-3738). Modelled: all of `replace_backslashUniEscapeSeqs`. Parameter: the decimal digits beyond ASCII that `re` and `int` know. The method is not called by the code at this commit.
* **Fieldsets** (pseudocode_semantics.py 2503-2545). Modelled: all of `process_declared_record_type_info` and `find_record_types_with_fields` (which is not called at this commit). Parameters: the types that the natures of the fields are converted to, and the chains of schemas (see Records for `self_and_supers`). Not modelled: that looking up a key in a `defaultdict` adds it.
* **Suite** (test_parser.py 44-205). Modelled: `test_one`, `test_all_in_dir`, `expectation_for_dirname` and the counters. Parameters: the parser, `get_early_errors_in`, the texts of the files, `corrections` and the pattern of temporary files. Not modelled: what is printed about a test, and the times.
* **Exprs** (pseudocode_semantics.py 1803-1847, 1906-2007). Modelled: `tc_expr`, `type_bracket_for`, `convert_nature_node_to_type`. Parameters: the functions `s_expr` and `s_tb` of the productions, the types. Assumed (`Right`): what they find out without a message is right, and the meaning of the subtype test and of `split_by`. Not modelled: the trace, and `convert_nature_to_type`.
* **Lookups** (pseudocode_semantics.py 3360-3410). Modelled: the filling of `class_for_prod_str_` by decorators, `lookup_for_prod`, `report_unused_entries` for one table. Not modelled: what is written before the program is ended, inheritance of attributes between classes (`hasattr` is a function of the class).
* **Numval** (pseudocode_semantics.py 6996-7022, 9197-9218, 9420-9429). Modelled: `the_Number_value_for`, the check in `EL_Number`, `compare` and `__mod__`, for integers. Not modelled: mathematical values that are Python floats, and the recognition of the texts of operators.
* **Typetree** (static_types.py 1021-1054, 1171-1182). Modelled: `TNode.__init__` with the table, `_traverse`, `_traverse_record_schema`. Not modelled: the global variables that `_HierType_etc` defines, and `children`, which is the reverse of `parent`.
* **Reduce** (Pseudocode_Parser.py 279-330, 581-593). Modelled: `matcher_for_gparse`, `reducer`, `is_a`. The parser that calls them is any sequence of matches and reductions (`Built`). Not modelled: the counts of reductions.

Not modelled at all: the regular expressions and tables of Section.py and headers, the type-checking rules for particular expressions of pseudocode (several thousand lines), test262.py, the generation of HTML.

## Where the program departs from the property

Each of these was found while modelling. Those with a theorem name are proved on the model.

* **C01** positions after the last newline make `convert_posn_to_linecol` fail; so a mismatched end-tag there crashes HTML parsing.
* **C06** `get_level_of_cluster` lacks a `return` (harmless, its result is not used); the global list of clusters accumulates over several graphs.
* **C08** kernels of states are not deduplicated.
* **C10, C11** an empty match makes `Tokenizer` and `NodeGrammar` loop for ever. The pseudocode tokenizer's error path uses `tok_s_posn` before assignment if the very first match fails.
* **C12, C13** mismatched end-tags are skipped, leaving gaps.
* **C14-C18** contravariance of ProcType is never checked; the member test asserts on (ListType, ProcType) and on anonymous records with different fields; the branch `B == T_Completion_Record` is unreachable; union drops `T_List` next to a specific list, merges element types of lists, drops the third field of Completion Record types, and asserts on two ProcTypes or two records of the same schema; `split_by` on lists does not give a partition (`c34_lists_witness` shows the effect); the check for `T_Top_` precedes that for `T_TBD`.
* **C19** indentation below the base depth is not rejected and open indents need not be closed (witnesses in Pseudo).
* **C20** alternatives before any left-hand side get the left-hand side `None`.
* **C23** cyclic grammars make tree building recurse for ever (`c23_diverges_witness`). An undefined nonterminal in any predicted right-hand side raises ParseError even if another alternative works. An optional multi-character literal in a lexical grammar is not exploded. An optional literal and an optional nonterminal of the same spelling collide. `LAC_SET` never matches. `CapturingGroupNumber` constraints are accepted unchecked.
* **C25** a semicolon inserted during a reparse does not move `_end_token_i`; insertion in for-headers is not prevented (marked XXX in the source); `rel_gap_contains_a_LineTerminator` looks at `_tokens[-1]` at the very start.
* **C26** `?` and `+` do not restore the indentation on backtracking (`c26_leak_witness`; harmless for the metagrammar in use); regexes are not bounded by `end_posn`.
* **C27** greedy matching of right-hand sides is incomplete (`c27_greedy_witness`); the errors about parameters are printed even when the match fails later; `check_param_prefix` looks for a kind that is never produced.
* **C29** the reachability check asserts on some item kinds and raises KeyError on undefined symbols.
* **C30** adding a field to a schema after its subschemas are declared can duplicate a field (`c30_late_witness`); `self_and_supers` fails on the root.
* **C31, C32** merging data attributes with accessor attributes succeeds and fails later; differing `[[ccb]]` values silently keep the first; cyclic prototypes recurse for ever.
* **C34** asserting "is a" on a TBD variable gives `false_env = None`.
* **C35** loops whose body always returns, or which settle only in the third pass, make the analysis fail (`c35_returning_body_witness`, `c35_third_pass_witness`).
* **C33, C41** setting a TBD settable uses `self`, not the new environment; stale entries for dependent expressions survive a Set.
* **C36, C42, C43** an operation defined by an expression that raises leaves its frame on the stack (`c42_leak_witness`); a missing thing in the scope of a local variable leaves the contour open (`c43_scope_witness`); variables of embedded algorithms leak (`c43_algorithm_witness`).
* **C37** only one level of nested calls is possible; `covered_thing` ignores the nonterminal (`c37_cache_witness`); the children of a node that its own rules find to cover something are still traversed (`c37_self_witness`).
* **C38** several introductions all get the number 0 (`c38_intro_witness`); more than 26 annexes fail.
* **C39** the text before an algorithm that starts in the first 100 characters is taken with a negative index.
* **C40** `mov` moves everything from the first to the last match, and fails if the destination lies inside.
* **C47** a production with an optional literal counts as a chain production in the report, but its parse node counts the literal as a nonterminal, so that the operation may be undefined although there is no complaint (`c47_optional_literal_witness`). More than three optional symbols make the check fail.
* **C49** a mapping whose first key has a block collection as value is refused, since `': '` is looked for in the first line (`c49_first_entry_witness`); so are items of a sequence at the indentation of their key, which YAML allows.
* **C50** a `th` or `td` with no table around it makes the validation crash on the attributes of None instead of being reported (`c50_stray_cell_witness`); of two comments in a row between white space the second counts as content, because matches of `re.sub` don't overlap (`c50_two_comments_witness`); for several spaces at offset 0 the character before is taken to be the last of the text (`text[-1]`).
* **C51** when an id is declared twice, references to it are judged by the last declaration only (`c51_last_decl_witness`).
* **C52** a row without cells counts as a header row (`c52_empty_row_witness`); two columns with the same header text are not reported and the first is missing from the dict (`c52_same_header_witness`); a table without rows passes and its user `check_tables` then fails on None (`c52_no_rows_witness`).
* **C53** the calls of `ToPrimitive` in `ToNumber` and `ToString` are left out of the graph, so they may be analysed before the types they read have settled and reports about them can be out of date (`c53_cut_dependency_witness`).
* **C54** a list of steps in none of the known forms is reported in part or makes the program fail: in 'step X, Y' the second step is left out (`c54_cut_short_witness`).
* **C54** a reference right after an element with content (`</b>step ...`) makes the program fail, because the search takes the end of an element to belong to it (`c54_after_element_witness`).
* **C55** a `?`, `+` or `~` on a parameter of a left-hand side is never reported, because `check_param_prefix` looks for nodes of a kind (`OPTIONAL_PREFIX`) that the metagrammar doesn't have (`c55_lhs_sign_witness`).
* **C55** `ArrowFormalParameters` is never added to the goal symbols, because the name of a grammar is never just 'syntactic' (`c55_goal_witness`).
* **C55** the message about an undefined nonterminal in a right-hand side says 'r_nt_name' instead of its name (a missing pair of braces, emu_grammars.py:853; read off the code).
* **C56** a message on arguments is given although the right-hand side turns out not to match, so that a production that repeats its definition exactly can be reported (`c56_early_witness`; the code has a remark on it).
* **C56** a use that repeats a description of characters or a `but only if` of its definition stops the program (`c56_characters_witness`).
* **C57** `|N|` is never looked at, because the pattern asks for two characters, and the text between two such references can be taken for a reference (`c57_one_letter_witness`, `c57_between_witness`).
* **C57** a text without the mark of annex B is checked against the definitions of annex B (`c57_no_mark_witness`); an empty argument (`|X[+In, ]|`) stops the program.
* **C58** an element that shows one of two right-hand sides which differ in their guards only, is also taken to show the other (`c58_guard_witness`); keys have no guards.
* **C59** the list of operations that are referenced but not declared has only those that are reached (`c59_unlisted_witness`); callers are kept by name only, so an operation looks like runtime semantics when a function of the same name calls one that does (`c59_same_name_witness`).
* The message "expected indent<T, got x" for a line that is out of step is only issued when x < T, so it asks for what the line already has (analyze_spec.py 275, `c63_below_message_witness`).
* "the first |X|" is accepted by the analysis where there is one |X|, and stops the execution (pseudocode_semantics.py 6387-6393 and 3168, `c65_first_of_one_witness`).
* A bare reference is accepted where the heading leaves out an absent optional |X|, and stops the execution since the grammar's production has two (`c65_hidden_witness`).
* A condition on the production of a node that is executed twice in a frame stops the execution if the node has children (pseudocode_semantics.py 2984-2992, `c65_ask_twice_witness`).
* The title of an operation with a required parameter after an optional one reads as if it were optional (Section.py 937-949, `c66_optional_first_witness`).
* The check of capitalization passes over all words that begin like a small word, as "interned" or "totally", since the lookahead has no word boundary (Section.py 1703, `c67_title_prefix_witness`).
* An argument whose static type is just `List` is let through where a `List of` something is wanted (pseudocode_semantics.py 2417-2421, `c68_bare_list_witness`).
* Appending to a list whose static type is just `List` makes its type `List of` the type of the item, whatever else is in the list (pseudocode_semantics.py 858-859, `c69_bare_witness`).
* After a chain like `0 ≤ _m_ ≤ 5` has turned out false, `_m_` is taken to be an integer, although it may be infinite (pseudocode_semantics.py 7674-7678, `c72_chain_false_witness`); the comparators are not looked at (`c72_mixed_witness`).
* The comparison of a mathematical +∞ with a finite Number is let through (pseudocode_semantics.py 7441-7656, `c71_mixed_witness`).
* Types that hold only in usual cases: a negative Number times an infinity, the negation of an infinite Number, a power with a negative exponent, the Number for a great integer, min of infinities (`c70_usual_witness`).
* Comparisons with `>`, `&lt;`, `=` and `≠` cannot be executed: `compare` tests for `&gt;`, which the grammar does not have, and not for the others (pseudocode_semantics.py 6995-7011, `c73_stops_witness`).
* A comparison whose left operand may be a code point stops with a NameError (pseudocode_semantics.py 7464-7470, `a_mt`).
* `get_pdn` refuses the names it gives to properties with symbol keys (intrinsics.py 27, `c74_symbol_witness`), and gives the path `GeneratorFunction.prototype.prototype` another name than the same path between percent signs (intrinsics.py 27-38, `c74_generator_witness`).
* `! E`, where `E` can only be abrupt, is not complained of: the analysis stops at an `assert 0` (pseudocode_semantics.py 6736-6740, `c76_bang_stops_witness`).
* A section that is recognized by its id or title (such as 'Races') may have further algorithms; they are parsed, but are in no definition, and there is no message (Section.py 729-731, `c78_odd_drops_witness`).
`is_strict` asserts that the body of a function is a FunctionBody or GeneratorBody, that of a method of its own kind one that `begins_with_a_DP_that_contains_a_USD` then rejects, and it misspells AsyncGeneratorMethod; so for code in asynchronous functions, generators and methods the program stops (`c80_async_stops`).
`compare_to_header` calls the list `pr_param_names` when it is about to report that names of parameters differ, so the program stops there with a TypeError (`c81_params_stop`).
`each_row_in_wki_table` checks that the cell with quotes is not among the names without them, which it never is; no name can come twice all the same (`c82_globals_once`).
In the sentences whose 'returns' is excepted (Section.py 1046-1058), `continue` also skips the check of variables (`c83_excepted`).
A right-hand side that matches no definition has no number (emu_grammars.py 1169), and comparing that with the number of its neighbour of the same production raises a TypeError, so that one error in the document, already reported, ends the whole analysis (`c84_stops`).
* mynamedtuple.py:56-57: a field called `T` hides the name of the type from readers (`c91_shadowed`); no type in the program has such a field.
* pseudocode_semantics.py:11137-11139 and 11157-11163: if the type of a field is not known for one part, `T_TBD` is used for it, and the union with `T_TBD` is just the other side. So the type of the dotting does not cover that part, and checks that use it can pass though the value is of another type. The message says that the field is not known (`c93_forgotten`).
* pseudocode_semantics.py:10605-10621: for `{EX} does not contain {VAL_DESC} {DEFVAR} such that {CONDITION_1}` the environments are the same as for `contains`: the one for true has the variable and what the condition says about it, though there is no such element; they are the wrong way round (`c94_contains_not`).
* pseudocode_semantics.py:8235-8240: if one side of `x is y` has type `T_TBD`, it gets the type of the other side in both environments, also in the one for the case that they differ (`c94_is_unknown`). A comment says that the actual type might be wider.
* A test with the flag `module` is counted for two runs, though a module is run once (test262.py 203-210; `c96_module`).
* A record constructor with a schema is accepted if declared fields are missing or given twice (pseudocode_semantics.py 10973-10983, where a comment says so; `c97_incomplete`).
* Digits of scripts other than Latin are accepted in escape sequences, since the pattern uses `\\d` (pseudocode_semantics.py 3735; an example in `Verif/Unesc/Props.lean`).
* A file that is given by its absolute path and cannot be parsed ends in an exception, since the function goes on without a node (test_parser.py 136-137 and 173; `c100_absolute`).
* The number of calls of the parser leaves out those that end in a ParseError (test_parser.py 144-145; `c100_calls`).
* There is no Number value for the largest safe integer 2^53 - 1 (the comparison is strict) or for negative integers: the program ends in an assertion (pseudocode_semantics.py 9421-9429; `c103_gap`).

## How far the mutation tests go

`seeded/LOG.jsonl` has one line per edited model. What `theorems_failed` means must be read with care:

* A build stops at the first broken module, so most lines (389 of the first 494) name only helper lemmas. That shows that the
  existing proof breaks. It does not by itself show that the property theorem is false of the edited model.
* Lines with `claim_broken` starting with "none" are edits which do not change behaviour. Helper lemmas failed on
  these too, which shows that the failure of a helper lemma is weak evidence.
* Survivors were at first not logged by the script. A search of all earlier runs found two: `hexDigit` (the theorem was tightened and the edit
  is logged with that) and `report` (unreachable code; logged as a survivor).
* A line about a failed `example` in a Props file, or a property theorem proved directly from the edited definition, is the stronger evidence.

A second run of all 488 edits of that time continues past broken lemmas (a lemma that fails is replaced, so that what uses it is still checked). Result: for 481 a theorem in a Props file fails or rests on a lemma that fails; 2 (of the metagrammar, C26) are caught only by examples; 1 breaks only a lemma and no claim; 1 survives (Early `report` outside a traversal, which is unreachable); 3 could not be settled within the time limit, though lemmas fail. A proof that fails is not by itself proof that the statement is false; where the edit makes an `example` false that is certain.

## Axioms of each theorem

| theorem | axioms |
|---|---|
| Shared.c01_linecol_exact | propext, Classical.choice, Quot.sound |
| Shared.c01_linecol_fails | propext, Classical.choice, Quot.sound |
| Shared.c01_getpos_roundtrip | propext, Classical.choice, Quot.sound |
| Shared.c01_caret | propext, Classical.choice, Quot.sound |
| Shared.c02_replacements_exact | propext, Quot.sound |
| Shared.c02_rejects_overlap | propext, Classical.choice, Quot.sound |
| Shared.c02_order_irrelevant | propext, Classical.choice, Quot.sound |
| Shared.c03_decode_encode | propext, Quot.sound |
| Shared.c03_refuses_lt | propext |
| Shared.c03_encoding_exists | none |
| Shared.c04_closed_is_document | propext, Quot.sound |
| Shared.c04_prefix_of_document | propext, Quot.sound |
| Shared.c04_closed_is_final | propext |
| Shared.c04_closed_is_balanced | propext, Quot.sound |
| Shared.c05_listing | propext, Classical.choice, Quot.sound |
| Shared.c05_order_irrelevant | propext, Classical.choice, Quot.sound |
| Shared.c05_bad_position_fails | propext, Classical.choice, Quot.sound |
| Shared.c05_targeted | propext, Classical.choice, Quot.sound |
| Shared.c05_caret_column | propext, Classical.choice, Quot.sound |
| Shared.c05_caret_range | propext, Classical.choice, Quot.sound |
| Graph.c06_clusters_exact | propext, Classical.choice, Quot.sound |
| Graph.build_mem | propext, Quot.sound |
| Graph.c07_levels | propext, Classical.choice, Quot.sound |
| DFA.c08_items_exact | propext, Classical.choice, Quot.sound |
| DFA.c08_transitions_exact | propext, Classical.choice, Quot.sound |
| DFA.c08_defined_iff | propext, Classical.choice, Quot.sound |
| DFA.c08_states_distinct | propext, Classical.choice, Quot.sound |
| DFA.c08_kernels_not_rearranged | propext, Classical.choice, Quot.sound |
| DFA.c08_accessor_shortest | propext, Classical.choice, Quot.sound |
| DFA.c08_no_assertion | propext, Classical.choice, Quot.sound |
| DFA.c08_terminates | propext, Classical.choice, Quot.sound |
| DFA.c08_same_set_two_states | propext |
| Util.c09_duplicate_refused | propext, Quot.sound |
| Util.c09_lookup_first | propext, Quot.sound |
| Util.c09_contains | propext, Quot.sound |
| Util.c09_access_counts | propext, Quot.sound |
| Util.c10_maximal_munch | propext, Classical.choice, Quot.sound |
| Util.c10_no_loss | propext, Classical.choice, Quot.sound |
| Util.c10_error_exact | propext, Classical.choice, Quot.sound |
| Util.c10_terminates | propext, Classical.choice, Quot.sound |
| Util.c10_zero_length_diverges | propext, Classical.choice, Quot.sound |
| Util.c10_unused | propext, Classical.choice, Quot.sound |
| Util.c11_scan_complete | propext, Classical.choice, Quot.sound |
| Util.c11_scan_reports | propext, Classical.choice, Quot.sound |
| Util.c11_scan_terminates | propext, Classical.choice, Quot.sound |
| Util.c11_empty_pattern_diverges | propext, Classical.choice, Quot.sound |
| Util.c11_unused | propext, Classical.choice, Quot.sound |
| HTML.c12_parse_exact | propext, Classical.choice, Quot.sound |
| HTML.c12_tiles | propext, Classical.choice, Quot.sound |
| HTML.c12_nested | propext, Classical.choice, Quot.sound |
| HTML.c12_names | propext, Classical.choice, Quot.sound |
| HTML.c13_silent_iff_balanced | propext, Classical.choice, Quot.sound |
| HTML.c13_mismatch_reported | propext, Classical.choice, Quot.sound |
| HTML.c13_messages_genuine | propext, Classical.choice, Quot.sound |
| HTML.c13_unclosed_refused | propext, Classical.choice, Quot.sound |
| Types.c14_sound | propext, Classical.choice, Quot.sound |
| Types.c14_complete_named | propext, Classical.choice, Quot.sound |
| Types.c14_procedure_parameters_unchecked | propext, Classical.choice, Quot.sound |
| Types.grown_ok | propext, Quot.sound |
| Types.c15_reflexive | propext |
| Types.c15_transitive | propext, Classical.choice, Quot.sound |
| Types.c15_third_answer_can_fail | propext, Classical.choice, Quot.sound |
| Types.c15_names | none |
| Types.c16_contains | propext, Classical.choice, Quot.sound |
| Types.c16_exact | propext, Classical.choice, Quot.sound |
| Types.c16_or | propext, Classical.choice, Quot.sound |
| Types.c16_set | propext, Classical.choice, Quot.sound |
| Types.c16_recursion | propext, Classical.choice, Quot.sound |
| Types.c16_defined | propext, Classical.choice, Quot.sound |
| Types.c16_lists_merge | propext, Classical.choice, Quot.sound |
| Types.c16_bare_list_dropped | propext, Classical.choice, Quot.sound |
| Types.c17_canonical | propext, Classical.choice, Quot.sound |
| Types.c17_irredundant | propext, Classical.choice, Quot.sound |
| Types.c17_set | propext, Classical.choice, Quot.sound |
| Types.c17_list_not_canonical | propext, Classical.choice, Quot.sound |
| Types.c18_partition | propext, Classical.choice, Quot.sound |
| Types.c18_tbd | propext, Classical.choice, Quot.sound |
| Types.c18_lists_not_partitioned | propext, Classical.choice, Quot.sound |
| Pseudo.c19_text | propext, Classical.choice, Quot.sound |
| Pseudo.c19_depth | propext, Classical.choice, Quot.sound |
| Pseudo.c19_runs | propext, Classical.choice, Quot.sound |
| Pseudo.c19_end | propext, Classical.choice, Quot.sound |
| Pseudo.c19_accepted | propext, Classical.choice, Quot.sound |
| Pseudo.c19_initial | propext, Classical.choice, Quot.sound |
| Pseudo.c19_ends | propext, Classical.choice, Quot.sound |
| Pseudo.c19_below_base_witness | propext |
| Pseudo.c19_unclosed_witness | propext |
| Pseudo.c19_names | propext, Classical.choice, Quot.sound |
| Pseudo.c20_productions | propext, Classical.choice, Quot.sound |
| Pseudo.c20_repeated | propext, Classical.choice, Quot.sound |
| Pseudo.c20_epsilon | propext, Classical.choice, Quot.sound |
| Pseudo.c20_undefined | propext, Classical.choice, Quot.sound |
| Earley.c21_settings | propext, Classical.choice, Quot.sound |
| Earley.c21_settings_refused | propext, Quot.sound |
| Earley.c21_arguments | propext, Quot.sound |
| Earley.c21_expansion | propext, Classical.choice, Quot.sound |
| Earley.c21_succeeds | propext, Classical.choice, Quot.sound |
| Earley.c21_names | none |
| Earley.c22_lexical | propext, Classical.choice, Quot.sound |
| Earley.c22_syntactic | propext, Classical.choice, Quot.sound |
| Earley.c23_lexical | propext, Classical.choice, Quot.sound |
| Earley.c23_lexical_accepts | propext, Classical.choice, Quot.sound |
| Earley.c23_diverges | propext, Classical.choice, Quot.sound |
| Earley.c23_diverges_witness | propext, Classical.choice, Quot.sound |
| Earley.c23_syntactic | propext, Classical.choice, Quot.sound |
| Earley.c23_syntactic_halts | propext, Classical.choice, Quot.sound |
| Earley.c24_longest | propext, Classical.choice, Quot.sound |
| Earley.c24_longest_any | propext, Classical.choice, Quot.sound |
| Earley.c25_request | propext, Classical.choice, Quot.sound |
| Earley.c25_refused | propext, Classical.choice, Quot.sound |
| Earley.c25_stream | propext, Classical.choice, Quot.sound |
| Earley.c25_tree | propext, Classical.choice, Quot.sound |
| Gram.c26_sound | propext, Quot.sound |
| Gram.c26_error | propext, Quot.sound |
| Gram.c26_complete | propext, Classical.choice, Quot.sound |
| Gram.c26_unique | propext, Classical.choice, Quot.sound |
| Gram.c26_fits | propext, Quot.sound |
| Gram.c26_metagrammar | propext, Quot.sound |
| Gram.c26_text | propext, Classical.choice, Quot.sound |
| Gram.c26_productions | propext, Classical.choice, Quot.sound |
| Gram.c26_leak_witness | propext, Quot.sound |
| Gram.c27_sound | propext, Quot.sound |
| Gram.c27_complete | propext, Quot.sound |
| Gram.c27_notes | propext, Quot.sound |
| Gram.c27_bits | propext, Classical.choice, Quot.sound |
| Gram.c27_greedy_witness | propext |
| Gram.c28_optbits | propext, Quot.sound |
| Gram.c28_count | propext, Quot.sound |
| Gram.c27_bits | propext, Classical.choice, Quot.sound |
| Gram.c29_worklist | propext, Classical.choice, Quot.sound |
| Gram.c29_worklist_fails | propext, Classical.choice, Quot.sound |
| Gram.c29_worklist_ends | propext, Classical.choice, Quot.sound |
| Gram.c29_report | propext, Classical.choice, Quot.sound |
| Gram.c29_operations | propext, Quot.sound |
| Gram.c29_operations_end | propext, Classical.choice, Quot.sound |
| Records.c30_history | propext, Classical.choice, Quot.sound |
| Records.c30_state | propext, Classical.choice, Quot.sound |
| Records.c30_once | propext, Classical.choice, Quot.sound |
| Records.c30_no_field_twice | propext, Classical.choice, Quot.sound |
| Records.c30_late_witness | propext, Quot.sound |
| Records.c30_complaint | propext, Classical.choice, Quot.sound |
| Records.c30_traversal | propext, Classical.choice, Quot.sound |
| Records.c30_depth | propext, Classical.choice, Quot.sound |
| Records.c30_table | propext, Classical.choice, Quot.sound |
| Records.c30_program | propext, Classical.choice, Quot.sound |
| Intrin.c31_merge | propext, Classical.choice, Quot.sound |
| Intrin.c31_accepted | propext, Classical.choice, Quot.sound |
| Intrin.c31_known | propext, Classical.choice, Quot.sound |
| Intrin.c31_order | propext, Classical.choice, Quot.sound |
| Intrin.c31_defaults | propext, Classical.choice, Quot.sound |
| Intrin.c31_defaults_refused | propext, Classical.choice, Quot.sound |
| Intrin.c31_names | none |
| Intrin.c32_order | propext, Quot.sound |
| Intrin.c32_prototype_first | propext, Classical.choice, Quot.sound |
| Intrin.c32_found | propext, Classical.choice, Quot.sound |
| Intrin.c32_fails | propext, Quot.sound |
| Env.c33_or | propext, Classical.choice, Quot.sound |
| Env.c33_or_covers | propext, Classical.choice, Quot.sound |
| Env.c33_or_contains | propext, Classical.choice, Quot.sound |
| Env.c33_and | propext, Classical.choice, Quot.sound |
| Env.c34_test | propext, Classical.choice, Quot.sound |
| Env.c34_messages | propext, Classical.choice, Quot.sound |
| Env.c34_logical | propext, Classical.choice, Quot.sound |
| Env.c34_lists_witness | propext, Classical.choice, Quot.sound |
| Env.c35_fixpoint | propext, Classical.choice, Quot.sound |
| Env.c35_appends | propext, Quot.sound |
| Env.c35_loop_sound | propext, Classical.choice, Quot.sound |
| Env.c35_third_pass_witness | propext |
| Env.c35_returning_body_witness | propext |
| Env.c35_names | none |
| Exec.c36_in_order | propext, Classical.choice, Quot.sound |
| Exec.c36_answers | propext, Classical.choice, Quot.sound |
| Exec.c36_final | propext, Classical.choice, Quot.sound |
| Exec.c36_block | propext, Classical.choice, Quot.sound |
| Early.c37_errors | propext, Quot.sound |
| Early.c37_nested | propext, Quot.sound |
| Early.c37_determined | none |
| Early.c37_once | propext, Classical.choice, Quot.sound |
| Early.c37_plain | propext |
| Early.c37_cover | propext |
| Early.c37_completes | propext, Quot.sound |
| Early.c37_stops | propext, Quot.sound |
| Early.c37_self_witness | none |
| Early.c37_cache_witness | none |
| Sections.c38_tree | propext, Classical.choice, Quot.sound |
| Sections.c38_succeeds | propext, Classical.choice, Quot.sound |
| Sections.c38_places | propext, Classical.choice, Quot.sound |
| Sections.c38_number | propext, Classical.choice, Quot.sound |
| Sections.c38_distinct | propext, Classical.choice, Quot.sound |
| Sections.c38_order | propext, Classical.choice, Quot.sound |
| Sections.c38_list | propext, Classical.choice, Quot.sound |
| Sections.c38_intro_witness | propext, Quot.sound |
| Vars.c39_undefined | propext, Classical.choice, Quot.sound |
| Vars.c39_unused | propext, Classical.choice, Quot.sound |
| Vars.c39_sorted | propext, Classical.choice, Quot.sound |
| Gram.c40_move | propext, Quot.sound |
| Gram.c40_permutation | propext, Quot.sound |
| Gram.c40_fails | propext, Quot.sound |
| Gram.c40_groups | propext, Classical.choice, Quot.sound |
| Env.c41_command | propext, Classical.choice, Quot.sound |
| Env.c41_algorithm | propext, Classical.choice, Quot.sound |
| Exec.c42_call | propext, Classical.choice, Quot.sound |
| Exec.c42_algorithms | propext, Quot.sound |
| Exec.c42_leak_witness | propext |
| Exec.c43_rules | propext, Classical.choice, Quot.sound |
| Exec.c43_independent | propext, Classical.choice, Quot.sound |
| Exec.c43_scope_witness | propext |
| Exec.c43_algorithm_witness | propext |
| Sections.c44_optional | propext, Quot.sound |
| Sections.c44_rest | propext, Quot.sound |
| Sections.c44_sound | propext, Classical.choice, Quot.sound |
| Sections.c45_pipeline | propext, Quot.sound |
| Sections.c46_items | propext, Quot.sound |
| Sdo.c47_report | propext, Quot.sound |
| Sdo.c47_completes | propext, Classical.choice, Quot.sound |
| Sdo.c47_sound | propext, Quot.sound |
| Sdo.c47_no_false_alarm | propext, Quot.sound |
| Sdo.c47_optional_literal_witness | propext |
| Sdo.c48_dispatch | propext, Quot.sound |
| Sdo.c48_undefined | propext, Quot.sound |
| Sdo.c48_default | propext, Classical.choice, Quot.sound |
| Front.c49_frontmatter | propext, Classical.choice, Quot.sound |
| Front.c49_unambiguous | propext, Classical.choice, Quot.sound |
| Front.c49_first_entry_witness | propext, Classical.choice, Quot.sound |
| Validate.c50_messages | propext, Classical.choice, Quot.sound |
| Validate.c50_finishes | propext, Classical.choice, Quot.sound |
| Validate.c50_clean | propext, Classical.choice, Quot.sound |
| Validate.c50_stray_cell_witness | propext, Classical.choice, Quot.sound |
| Validate.c50_two_comments_witness | propext |
| Validate.c50_names | propext, Classical.choice, Quot.sound |
| Ids.c51_messages | propext, Classical.choice, Quot.sound |
| Ids.c51_finishes | propext, Classical.choice, Quot.sound |
| Ids.c51_table | propext, Classical.choice, Quot.sound |
| Ids.c51_clean | propext, Classical.choice, Quot.sound |
| Ids.c51_terms | propext, Classical.choice, Quot.sound |
| Ids.c51_nodes | propext, Quot.sound |
| Ids.c51_split | propext, Quot.sound |
| Ids.c51_last_decl_witness | propext, Classical.choice, Quot.sound |
| Ids.c51_names | propext, Classical.choice, Quot.sound |
| Tables.c52_reads | propext, Classical.choice, Quot.sound |
| Tables.c52_finishes | propext, Classical.choice, Quot.sound |
| Tables.c52_caption_unique | propext, Classical.choice, Quot.sound |
| Tables.c52_cell | propext, Classical.choice, Quot.sound |
| Tables.c52_text | propext, Classical.choice, Quot.sound |
| Tables.c52_round_trip | propext, Classical.choice, Quot.sound |
| Tables.c52_empty_row_witness | propext, Classical.choice, Quot.sound |
| Tables.c52_same_header_witness | propext, Classical.choice, Quot.sound |
| Tables.c52_no_rows_witness | propext, Classical.choice, Quot.sound |
| Tables.c52_names | propext, Classical.choice, Quot.sound |
| Sta.c53_report | propext, Classical.choice, Quot.sound |
| Sta.c53_by_calls | propext, Classical.choice, Quot.sound |
| Sta.c53_stated | propext, Classical.choice, Quot.sound |
| Sta.c53_changes | propext, Classical.choice, Quot.sound |
| Sta.c53_callers | propext, Classical.choice, Quot.sound |
| Sta.c53_gives_up | propext, Classical.choice, Quot.sound |
| Sta.c53_all_stated | propext, Classical.choice, Quot.sound |
| Sta.c53_unique | propext |
| Sta.c53_cut_dependency_witness | propext, Classical.choice, Quot.sound |
| Sta.c53_names | none |
| StepRefs.c54_refs | propext, Classical.choice, Quot.sound |
| StepRefs.c54_locate | propext, Classical.choice, Quot.sound |
| StepRefs.c54_found | propext, Classical.choice, Quot.sound |
| StepRefs.c54_report | propext, Classical.choice, Quot.sound |
| StepRefs.c54_report_iff | propext, Classical.choice, Quot.sound |
| StepRefs.c54_cut_short_witness | propext, Classical.choice, Quot.sound |
| StepRefs.c54_after_element_witness | propext, Classical.choice, Quot.sound |
| Defs.c55_stops | propext, Classical.choice, Quot.sound |
| Defs.c55_messages | propext, Classical.choice, Quot.sound |
| Defs.c55_table | propext, Classical.choice, Quot.sound |
| Defs.c55_grammar | propext, Classical.choice, Quot.sound |
| Defs.c55_goals | propext, Classical.choice, Quot.sound |
| Defs.c55_lhs_sign_witness | propext, Classical.choice, Quot.sound |
| Defs.c55_goal_witness | propext, Classical.choice, Quot.sound |
| Uses.c56_stops | propext, Classical.choice, Quot.sound |
| Uses.c56_report | propext, Classical.choice, Quot.sound |
| Uses.c56_one_case | propext, Classical.choice, Quot.sound |
| Uses.c56_match | propext, Quot.sound |
| Uses.c56_reduced | propext, Classical.choice, Quot.sound |
| Uses.c56_quiet | propext, Classical.choice, Quot.sound |
| Uses.c56_early_witness | propext, Classical.choice, Quot.sound |
| Uses.c56_characters_witness | propext, Classical.choice, Quot.sound |
| Refs.c57_annex_stops | propext, Classical.choice, Quot.sound |
| Refs.c57_annex | propext, Classical.choice, Quot.sound |
| Refs.c57_references_unique | propext, Quot.sound |
| Refs.c57_stops | propext, Classical.choice, Quot.sound |
| Refs.c57_messages | propext, Classical.choice, Quot.sound |
| Refs.c57_says_unique | propext, Classical.choice, Quot.sound |
| Refs.c57_one_letter_witness | propext, Classical.choice, Quot.sound |
| Refs.c57_between_witness | propext, Classical.choice, Quot.sound |
| Refs.c57_no_mark_witness | propext, Classical.choice, Quot.sound |
| Heads.c58_grammar | propext, Classical.choice, Quot.sound |
| Heads.c58_is | propext, Classical.choice, Quot.sound |
| Heads.c58_instance | propext, Classical.choice, Quot.sound |
| Heads.c58_unit | propext, Classical.choice, Quot.sound |
| Heads.c58_any | propext, Classical.choice, Quot.sound |
| Heads.c58_number | propext, Classical.choice, Quot.sound |
| Heads.c58_contains | propext, Classical.choice, Quot.sound |
| Heads.c58_invocation | propext, Classical.choice, Quot.sound |
| Heads.c58_undefined | propext, Classical.choice, Quot.sound |
| Heads.c58_default | propext, Classical.choice, Quot.sound |
| Heads.c58_covered | propext, Classical.choice, Quot.sound |
| Heads.c58_unused | propext, Classical.choice, Quot.sound |
| Heads.c58_guard_witness | propext, Classical.choice, Quot.sound |
| Deps.c59_report | propext, Classical.choice, Quot.sound |
| Deps.c59_unique | propext, Classical.choice, Quot.sound |
| Deps.c59_completes | propext, Classical.choice, Quot.sound |
| Deps.c59_messages | propext, Classical.choice, Quot.sound |
| Deps.c59_invocations | propext, Classical.choice, Quot.sound |
| Deps.c59_the | propext, Classical.choice, Quot.sound |
| Deps.c59_the_completes | propext, Classical.choice, Quot.sound |
| Deps.c59_optional | propext, Classical.choice, Quot.sound |
| Deps.c59_optional_completes | propext, Classical.choice, Quot.sound |
| Deps.c59_unlisted_witness | propext, Classical.choice, Quot.sound |
| Deps.c59_same_name_witness | propext, Classical.choice, Quot.sound |
| Annot.c60_names | propext, Classical.choice, Quot.sound |
| Annot.c60_one_reading | propext, Classical.choice, Quot.sound |
| Annot.c60_connect | propext, Classical.choice, Quot.sound |
| Annot.c60_process | propext, Classical.choice, Quot.sound |
| Annot.c60_unique | propext, Quot.sound |
| Annot.c60_completes | propext, Classical.choice, Quot.sound |
| Annot.c60_plain | propext, Classical.choice, Quot.sound |
| Style.c61_ifs | propext, Classical.choice, Quot.sound |
| Style.c61_if_one | propext, Classical.choice, Quot.sound |
| Style.c61_common | propext, Quot.sound |
| Style.c61_if_completes | propext, Classical.choice, Quot.sound |
| Style.c61_descriptions | propext, Classical.choice, Quot.sound |
| Style.c61_letter | propext, Classical.choice, Quot.sound |
| Style.c61_words | propext, Classical.choice, Quot.sound |
| Algs.c62_header | propext, Classical.choice, Quot.sound |
| Algs.c62_no_marks | propext, Classical.choice, Quot.sound |
| Algs.c62_registry | propext, Classical.choice, Quot.sound |
| Algs.c62_stops | propext, Classical.choice, Quot.sound |
| Algs.c62_fit | propext, Classical.choice, Quot.sound |
| Algs.c62_check | propext, Classical.choice, Quot.sound |
| Algs.c62_unique | propext, Classical.choice, Quot.sound |
| Layout.c63_messages | propext, Classical.choice, Quot.sound |
| Layout.c63_stops | propext, Classical.choice, Quot.sound |
| Layout.c63_lines | propext, Quot.sound |
| Layout.c63_unique | propext, Quot.sound |
| Layout.c63_well_laid | propext, Classical.choice, Quot.sound |
| Layout.c63_below_message_witness | propext, Quot.sound |
| Layout.c64_extra_blanks | propext, Classical.choice, Quot.sound |
| Layout.c64_blank_before_end | propext, Classical.choice, Quot.sound |
| Layout.c64_trailing | propext, Classical.choice, Quot.sound |
| Layout.c64_unusual | propext, Classical.choice, Quot.sound |
| Focus.c65_stands | propext, Quot.sound |
| Focus.c65_resolves | propext, Classical.choice, Quot.sound |
| Focus.c65_static_stops | propext, Classical.choice, Quot.sound |
| Focus.c65_static_errors | propext, Classical.choice, Quot.sound |
| Focus.c65_static_type | propext, Classical.choice, Quot.sound |
| Focus.c65_sound | propext, Classical.choice, Quot.sound |
| Focus.c65_augment | propext, Quot.sound |
| Focus.c65_augmented | propext, Classical.choice, Quot.sound |
| Focus.c65_names | propext, Classical.choice, Quot.sound |
| Focus.c65_first_of_one_witness | propext, Classical.choice, Quot.sound |
| Focus.c65_hidden_witness | propext, Classical.choice, Quot.sound |
| Focus.c65_ask_twice_witness | propext, Classical.choice, Quot.sound |
| Titles.c66_stops | propext, Classical.choice, Quot.sound |
| Titles.c66_reads | propext, Classical.choice, Quot.sound |
| Titles.c66_faithful | propext, Quot.sound |
| Titles.c66_id_host | propext, Classical.choice, Quot.sound |
| Titles.c66_id_numeric | propext, Classical.choice, Quot.sound |
| Titles.c66_id_env | propext, Classical.choice, Quot.sound |
| Titles.c66_id_internal | propext, Classical.choice, Quot.sound |
| Titles.c66_names | none |
| Titles.c66_optional_first_witness | propext, Classical.choice, Quot.sound |
| Titles.c67_title_stops | propext, Classical.choice, Quot.sound |
| Titles.c67_title | propext, Classical.choice, Quot.sound |
| Titles.c67_title_few | propext, Classical.choice, Quot.sound |
| Titles.c67_title_prefix_witness | propext, Classical.choice, Quot.sound |
| Titles.c67_aoid_stops | propext, Classical.choice, Quot.sound |
| Titles.c67_aoid | propext, Classical.choice, Quot.sound |
| Titles.c67_order_stops | propext, Classical.choice, Quot.sound |
| Titles.c67_order | propext, Classical.choice, Quot.sound |
| Titles.c67_sorted | propext, Classical.choice, Quot.sound |
| Titles.c67_key | propext, Classical.choice, Quot.sound |
| Titles.c67_key_get | propext, Classical.choice, Quot.sound |
| Titles.c67_key_int8 | propext, Classical.choice, Quot.sound |
| Titles.c67_key_underscores | propext, Classical.choice, Quot.sound |
| Titles.c67_key_symbol | propext, Classical.choice, Quot.sound |
| Titles.c67_names | none |
| Calls.c68_messages | propext, Classical.choice, Quot.sound |
| Calls.c68_too_many | propext, Quot.sound |
| Calls.c68_sound | propext, Classical.choice, Quot.sound |
| Calls.c68_bare_list_witness | propext, Classical.choice, Quot.sound |
| Calls.c69_ensure | propext, Classical.choice, Quot.sound |
| Calls.c69_ensure_sound | propext, Classical.choice, Quot.sound |
| Calls.c69_assert | propext, Classical.choice, Quot.sound |
| Calls.c69_assert_exact | propext, Classical.choice, Quot.sound |
| Calls.c69_append | propext, Classical.choice, Quot.sound |
| Calls.c69_append_not_list | propext, Classical.choice, Quot.sound |
| Calls.c69_bare_witness | propext, Classical.choice, Quot.sound |
| Arith.c70_sound | propext, Classical.choice, Quot.sound |
| Arith.c70_tight | propext, Classical.choice, Quot.sound |
| Arith.c70_complaints | propext, Quot.sound |
| Arith.c70_modulo | propext, Classical.choice, Quot.sound |
| Arith.c70_usual_witness | propext, Classical.choice, Quot.sound |
| Arith.c71_verdict | propext, Classical.choice, Quot.sound |
| Arith.c71_mixed_witness | propext, Classical.choice, Quot.sound |
| Arith.c71_sound | propext, Classical.choice, Quot.sound |
| Arith.c72_chain | propext, Classical.choice, Quot.sound |
| Arith.c72_interval | propext, Classical.choice, Quot.sound |
| Arith.c72_chain_false_witness | propext, Classical.choice, Quot.sound |
| Arith.c72_mixed_witness | propext, Classical.choice, Quot.sound |
| Arith.c73_exec | propext, Classical.choice, Quot.sound |
| Arith.c73_compare | propext, Classical.choice, Quot.sound |
| Arith.c73_chain | propext, Classical.choice, Quot.sound |
| Arith.c73_comparators | propext, Classical.choice, Quot.sound |
| Arith.c73_stops_witness | propext, Classical.choice, Quot.sound |
| Paths.c74_name | propext, Classical.choice, Quot.sound |
| Paths.c74_only | propext, Classical.choice, Quot.sound |
| Paths.c74_unambiguous | propext, Classical.choice, Quot.sound |
| Paths.c74_distinct | propext, Classical.choice, Quot.sound |
| Paths.c74_again | propext, Classical.choice, Quot.sound |
| Paths.c74_symbol_witness | propext, Classical.choice, Quot.sound |
| Paths.c74_generator_witness | propext, Classical.choice, Quot.sound |
| Paths.c75_split | propext, Classical.choice, Quot.sound |
| Paths.c75_unique | propext, Classical.choice, Quot.sound |
| Paths.c75_confirm | propext, Classical.choice, Quot.sound |
| Paths.c75_confirm_none | propext, Classical.choice, Quot.sound |
| Unwrap.c76_sound | propext, Classical.choice, Quot.sound |
| Unwrap.c76_messages | propext, Classical.choice, Quot.sound |
| Unwrap.c76_type | propext, Classical.choice, Quot.sound |
| Unwrap.c76_checked | propext, Classical.choice, Quot.sound |
| Unwrap.c76_bang_defined | propext, Classical.choice, Quot.sound |
| Unwrap.c76_bang_stops_witness | propext, Classical.choice, Quot.sound |
| Unwrap.c77_return | propext, Classical.choice, Quot.sound |
| Unwrap.c77_throw | propext, Classical.choice, Quot.sound |
| Unwrap.c77_throw_error | propext, Classical.choice, Quot.sound |
| Unwrap.c77_close | propext, Classical.choice, Quot.sound |
| Unwrap.c77_reject | propext, Classical.choice, Quot.sound |
| Bodies.c78_sdo | propext, Classical.choice, Quot.sound |
| Bodies.c78_sdo_algs | propext |
| Bodies.c78_inline | propext, Classical.choice, Quot.sound |
| Bodies.c78_early | propext, Classical.choice, Quot.sound |
| Bodies.c78_early_misplaced | propext, Classical.choice, Quot.sound |
| Bodies.c78_operation | propext, Classical.choice, Quot.sound |
| Bodies.c78_function | propext, Classical.choice, Quot.sound |
| Bodies.c78_odd | propext, Classical.choice, Quot.sound |
| Bodies.c78_odd_drops_witness | propext, Classical.choice, Quot.sound |
| Bodies.c78_other | propext, Classical.choice, Quot.sound |
| Bodies.c78_parsed_once | propext, Classical.choice, Quot.sound |
| Bodies.c78_no_sharing | propext, Classical.choice, Quot.sound |
| Kinds.c79_kind | propext, Classical.choice, Quot.sound |
| Kinds.c79_unique | propext, Classical.choice, Quot.sound |
| Kinds.c79_total | propext, Classical.choice, Quot.sound |
| Kinds.c79_stops | propext, Classical.choice, Quot.sound |
| Kinds.c79_function | propext, Classical.choice, Quot.sound |
| Kinds.c79_head_call | propext, Classical.choice, Quot.sound |
| Kinds.c79_head_accessor | propext, Classical.choice, Quot.sound |
| Kinds.c79_head_none | propext, Classical.choice, Quot.sound |
| Kinds.c79_ref_title | propext, Classical.choice, Quot.sound |
| Kinds.c79_reference | propext, Classical.choice, Quot.sound |
| Kinds.c79_unused | propext, Classical.choice, Quot.sound |
| Kinds.c79_changes | propext, Classical.choice, Quot.sound |
| Kinds.c79_other | propext, Classical.choice, Quot.sound |
| Kinds.c79_function_section | propext, Classical.choice, Quot.sound |
| Kinds.c79_check_id | propext, Classical.choice, Quot.sound |
| Strict.c80_sound | propext, Classical.choice, Quot.sound |
| Strict.c80_strict | propext, Classical.choice, Quot.sound |
| Strict.c80_async_stops | propext, Classical.choice, Quot.sound |
| Strict.c80_parameters_stop | propext, Classical.choice, Quot.sound |
| Strict.c80_nested | propext, Classical.choice, Quot.sound |
| Strict.c80_containing | propext, Classical.choice, Quot.sound |
| Strict.c80_goal | propext, Quot.sound |
| Strict.c80_duplicates | propext, Classical.choice, Quot.sound |
| Preambles.c81_sentence | propext, Classical.choice, Quot.sound |
| Preambles.c81_split | propext, Classical.choice, Quot.sound |
| Preambles.c81_stops_reading | propext, Classical.choice, Quot.sound |
| Preambles.c81_facts | propext, Classical.choice, Quot.sound |
| Preambles.c81_described | propext, Classical.choice, Quot.sound |
| Preambles.c81_field | propext |
| Preambles.c81_stops | propext, Classical.choice, Quot.sound |
| Preambles.c81_params_stop | propext, Classical.choice, Quot.sound |
| Preambles.c81_head | propext, Classical.choice, Quot.sound |
| Preambles.c81_messages | propext, Classical.choice, Quot.sound |
| Preambles.c81_check | propext, Classical.choice, Quot.sound |
| Preambles.c81_not_read | propext, Classical.choice, Quot.sound |
| Wki.c82_tables | propext, Classical.choice, Quot.sound |
| Wki.c82_globals_once | propext, Classical.choice, Quot.sound |
| Wki.c82_phrase | propext, Classical.choice, Quot.sound |
| Wki.c82_refs | propext, Classical.choice, Quot.sound |
| Wki.c82_messages | propext, Classical.choice, Quot.sound |
| Wki.c82_sound | propext, Classical.choice, Quot.sound |
| Wki.c82_ordered | propext, Classical.choice, Quot.sound |
| Wki.c82_not_missed | propext, Classical.choice, Quot.sound |
| Wki.c82_quiet | propext, Classical.choice, Quot.sound |
| Wki.c82_globals_stop | propext, Classical.choice, Quot.sound |
| Wki.c82_globals | propext, Classical.choice, Quot.sound |
| Dl.c83_entries | propext, Classical.choice, Quot.sound |
| Dl.c83_variables | propext, Classical.choice, Quot.sound |
| Dl.c83_params | propext, Classical.choice, Quot.sound |
| Dl.c83_returns | propext, Classical.choice, Quot.sound |
| Dl.c83_no_returns | propext, Classical.choice, Quot.sound |
| Dl.c83_offers | propext, Classical.choice, Quot.sound |
| Dl.c83_sound | propext, Classical.choice, Quot.sound |
| Dl.c83_header | propext, Classical.choice, Quot.sound |
| Dl.c83_stops | propext, Classical.choice, Quot.sound |
| Dl.c83_excepted | propext, Classical.choice, Quot.sound |
| Checks.c84_order | propext, Quot.sound |
| Checks.c84_quiet | propext, Classical.choice, Quot.sound |
| Checks.c84_stops | propext, Quot.sound |
| Checks.c85_tables | propext, Classical.choice, Quot.sound |
| Checks.c85_asked | propext, Classical.choice, Quot.sound |
| Checks.c85_equations | propext, Quot.sound |
| Checks.c85_algorithms | propext, Quot.sound |
| Objs.c86_attrs | propext, Classical.choice, Quot.sound |
| Objs.c86_item | propext, Classical.choice, Quot.sound |
| Objs.c86_begins | propext, Classical.choice, Quot.sound |
| Objs.c86_section | propext, Classical.choice, Quot.sound |
| Objs.c86_one_reading | propext, Classical.choice, Quot.sound |
| Objs.c86_about | propext, Classical.choice, Quot.sound |
| Propsecs.c87_way | propext, Classical.choice, Quot.sound |
| Propsecs.c87_property | propext, Classical.choice, Quot.sound |
| Propsecs.c87_exists | propext, Classical.choice, Quot.sound |
| Propsecs.c87_constructor | propext, Classical.choice, Quot.sound |
| Propsecs.c88_check | propext, Classical.choice, Quot.sound |
| Propsecs.c88_quiet | propext, Classical.choice, Quot.sound |
| Facts.c89_put | propext, Classical.choice, Quot.sound |
| Facts.c89_count | propext, Classical.choice, Quot.sound |
| Facts.c89_subject | propext, Classical.choice, Quot.sound |
| Facts.c89_same | propext, Classical.choice, Quot.sound |
| Facts.c89_each | propext, Classical.choice, Quot.sound |
| Facts.c89_cell | propext, Classical.choice, Quot.sound |
| Blocks.c90_block | propext, Classical.choice, Quot.sound |
| Blocks.c90_blocks | propext, Classical.choice, Quot.sound |
| Blocks.c90_own | propext, Classical.choice, Quot.sound |
| Blocks.c90_function | propext, Classical.choice, Quot.sound |
| Tuples.c91_made | propext, Classical.choice, Quot.sound |
| Tuples.c91_new | propext, Classical.choice, Quot.sound |
| Tuples.c91_eq | propext, Classical.choice, Quot.sound |
| Tuples.c91_less | propext, Classical.choice, Quot.sound |
| Tuples.c91_fields | propext, Classical.choice, Quot.sound |
| Tuples.c91_read | propext, Classical.choice, Quot.sound |
| Tuples.c91_items | propext, Classical.choice, Quot.sound |
| Tuples.c91_repr | propext, Classical.choice, Quot.sound |
| Tuples.c91_shadowed | propext, Classical.choice, Quot.sound |
| CodePoints.c92_start | propext, Classical.choice, Quot.sound |
| CodePoints.c92_continue | propext, Classical.choice, Quot.sound |
| CodePoints.c92_unknown | propext, Classical.choice, Quot.sound |
| CodePoints.c92_match | propext, Classical.choice, Quot.sound |
| CodePoints.c92_not | propext, Classical.choice, Quot.sound |
| CodePoints.c92_total | propext, Classical.choice, Quot.sound |
| CodePoints.c92_depth | propext, Classical.choice, Quot.sound |
| CodePoints.c92_loop | propext, Classical.choice, Quot.sound |
| Dots.c93_sound | propext, Classical.choice, Quot.sound |
| Dots.c93_narrow | propext, Classical.choice, Quot.sound |
| Dots.c93_only | propext, Classical.choice, Quot.sound |
| Dots.c93_told | propext, Classical.choice, Quot.sound |
| Dots.c93_named | propext, Classical.choice, Quot.sound |
| Dots.c93_warn | propext, Classical.choice, Quot.sound |
| Dots.c93_slot | propext, Classical.choice, Quot.sound |
| Dots.c93_forgotten | propext, Classical.choice, Quot.sound |
| Conds.c94_is | propext, Classical.choice, Quot.sound |
| Conds.c94_is_equal | propext, Quot.sound |
| Conds.c94_is_narrow | propext, Quot.sound |
| Conds.c94_same | propext, Classical.choice, Quot.sound |
| Conds.c94_distinct | propext, Quot.sound |
| Conds.c94_both | propext, Classical.choice, Quot.sound |
| Conds.c94_neither | propext, Classical.choice, Quot.sound |
| Conds.c94_contains | propext, Quot.sound |
| Conds.c94_is_unknown | propext |
| Conds.c94_contains_not | propext |
| Trees.c95_faithful | propext, Classical.choice, Quot.sound |
| Trees.c95_lines | propext, Classical.choice, Quot.sound |
| Trees.c95_prefix | propext, Classical.choice, Quot.sound |
| Trees.c95_nothing | propext, Classical.choice, Quot.sound |
| Runs.c96_counted | propext, Classical.choice, Quot.sound |
| Runs.c96_refused | propext, Classical.choice, Quot.sound |
| Runs.c96_one_or_two | propext, Classical.choice, Quot.sound |
| Runs.c96_totals | propext, Classical.choice, Quot.sound |
| Runs.c96_bounds | propext, Classical.choice, Quot.sound |
| Runs.c96_module | propext, Classical.choice, Quot.sound |
| Recs.c97_fields | none |
| Recs.c97_arguments | propext |
| Recs.c97_article | propext, Classical.choice, Quot.sound |
| Recs.c97_names | propext, Classical.choice, Quot.sound |
| Recs.c97_plain | propext, Classical.choice, Quot.sound |
| Recs.c97_later | propext, Classical.choice, Quot.sound |
| Recs.c97_schema | propext, Classical.choice, Quot.sound |
| Recs.c97_undeclared | propext, Classical.choice, Quot.sound |
| Recs.c97_incomplete | propext, Classical.choice, Quot.sound |
| Unesc.c98_meaning | propext, Classical.choice, Quot.sound |
| Unesc.c98_unique | propext, Classical.choice, Quot.sound |
| Unesc.c98_spelling | propext, Classical.choice, Quot.sound |
| Unesc.c98_exception | propext, Classical.choice, Quot.sound |
| Unesc.c98_too_large | propext, Classical.choice, Quot.sound |
| Fieldsets.c99_nearest | propext, Classical.choice, Quot.sound |
| Fieldsets.c99_table | propext, Classical.choice, Quot.sound |
| Fieldsets.c99_tweak | propext, Classical.choice, Quot.sound |
| Fieldsets.c99_find | propext, Classical.choice, Quot.sound |
| Fieldsets.c99_twice | propext, Classical.choice, Quot.sound |
| Suite.c100_verdict | propext, Classical.choice, Quot.sound |
| Suite.c100_totals | propext, Classical.choice, Quot.sound |
| Suite.c100_other | propext, Classical.choice, Quot.sound |
| Suite.c100_absolute | propext, Classical.choice, Quot.sound |
| Suite.c100_calls | propext, Classical.choice, Quot.sound |
| Exprs.c101_known | propext, Classical.choice, Quot.sound |
| Exprs.c101_sound | propext, Classical.choice, Quot.sound |
| Exprs.c101_passed | propext, Classical.choice, Quot.sound |
| Exprs.c101_unmixed | propext, Classical.choice, Quot.sound |
| Exprs.c101_messages | propext, Classical.choice, Quot.sound |
| Exprs.c101_exempt | propext, Classical.choice, Quot.sound |
| Exprs.c101_total | propext, Classical.choice, Quot.sound |
| Exprs.c101_bracket | none |
| Lookups.c102_load | propext, Classical.choice, Quot.sound |
| Lookups.c102_answers | propext, Classical.choice, Quot.sound |
| Lookups.c102_ends | propext, Classical.choice, Quot.sound |
| Lookups.c102_unused | propext, Classical.choice, Quot.sound |
| Lookups.c102_report | propext, Classical.choice, Quot.sound |
| Numval.c103_right | propext, Quot.sound |
| Numval.c103_when | none |
| Numval.c103_gap | propext, Quot.sound |
| Numval.c103_modulo | propext, Classical.choice, Quot.sound |
| Numval.c103_modulo_zero | none |
| Numval.c103_compare | propext |
| Typetree.c104_named | propext, Quot.sound |
| Typetree.c104_schemas | propext, Classical.choice, Quot.sound |
| Typetree.c104_built | propext, Quot.sound |
| Typetree.c104_built_schemas | propext, Classical.choice, Quot.sound |
| Reduce.c105_matched | propext, Classical.choice, Quot.sound |
| Reduce.c105_reduced | propext, Classical.choice, Quot.sound |
| Reduce.c105_extents | propext, Classical.choice, Quot.sound |
| Reduce.c105_is_a | propext |
