{"id": "C01", "title": "Position to line/column is exact", "statement": "For every spec text and every offset that lies at or before the text's last newline, the reported (line, column) is the one a text editor would show: the line number is one more than the number of newlines strictly before the offset and the column is one more than the distance to the start of that line. For an offset after the last newline the conversion does not return a wrong answer, it fails an assertion.", "quantifier": "all texts, all offsets", "why_tests_cant": "there are infinitely many texts; the bisection's boundaries (first line, offset on a newline, last line) interact with the number of newlines, which a finite suite only samples", "anchors": ["shared.py:install_spec_text", "shared.py:convert_posn_to_linecol"]}
{"id": "C02", "title": "Replacement splicing changes exactly the requested ranges", "statement": "Writing the spec with a list of (start, end, replacement) edits, given in any order, outputs the text in which each requested range is replaced by its replacement and every other character is preserved in order; if two ranges overlap no output is accepted (assertion), whatever order they were given in.", "quantifier": "all texts and all finite lists of edits", "why_tests_cant": "the set of edit lists is unbounded and the order-independence claim quantifies over all permutations", "anchors": ["shared.py:write_spec_with_replacements"]}
{"id": "C03", "title": "Entity decoding is a left inverse of entity encoding", "statement": "decode_entities maps the HTML-encoded form of any plain string back to that string, and refuses (assertion) any input containing a raw '<'.", "quantifier": "all strings", "why_tests_cant": "replacement order matters (&amp; must be decoded last) and only for adversarial strings such as '&amp;lt;'; all strings must be covered", "anchors": ["shared.py:decode_entities"]}
{"id": "C04", "title": "The DL builder emits only well-formed definition lists", "statement": "For every sequence of builder calls, either some call fails its assertion, or the emitted lines form a prefix of a well-nested <dl> with dt/dd alternation, and a sequence ending in the closed state emits a complete one.", "quantifier": "all finite call sequences", "why_tests_cant": "a state machine's safety over all call histories", "anchors": ["shared.py:DL"]}
{"id": "C05", "title": "Message listing keeps every message exactly once, at its line, in column order", "statement": "When positional messages have been recorded in any order and the annotated text is written, every line of the text appears exactly once and in order, every message appears exactly once, directly after its own line, and messages of one line appear in nondecreasing (column, message) order.", "quantifier": "all message histories", "why_tests_cant": "the property ranges over every multiset and every arrival order of messages", "anchors": ["shared.py:msg_at_posn", "shared.py:write_spec_with_extras", "shared.py:prep_for_line_info"]}
{"id": "C06", "title": "Dependency clusters are exactly the strongly connected components", "statement": "For every finite directed graph built with add_vertex/add_arc, the clusters found partition the vertices, and two vertices share a cluster exactly when each is reachable from the other.", "quantifier": "all finite digraphs", "why_tests_cant": "graph shapes are unbounded; correctness of a path-based SCC algorithm needs an inductive invariant", "anchors": ["Graph.py:Graph.find_strongly_connected_components", "Graph.py:Graph.compute_dependency_levels"]}
{"id": "C07", "title": "Clusters come out dependencies-first and levels respect dependencies", "statement": "Every arc leaving a cluster leads to a cluster found earlier; each cluster's level is 0 when it has no prerequisite clusters and otherwise one more than the highest level of its prerequisites, so analysing level by level never meets an unanalysed prerequisite; the assertion on level numbers never fires.", "quantifier": "all finite digraphs", "why_tests_cant": "ordering must hold for all graphs; the code's level function returns nothing the first time it computes a level, and is saved only by the emission order", "anchors": ["Graph.py:establish_dependency_levels", "Graph.py:Graph.find_strongly_connected_components"]}
{"id": "C08", "title": "The LR automaton recognises exactly the viable item sets", "statement": "For every item system, after reading any symbol sequence the automaton built by the worklist is in a state whose items are exactly those obtainable by following the sequence one symbol at a time with free expansion in between; there is a transition on a symbol exactly when some item can advance over it; distinct states have distinct kernels and state numbers are 0,1,2,...", "quantifier": "all finite item systems and all symbol sequences", "why_tests_cant": "language equivalence of a construction ranges over all strings", "anchors": ["DFA.py:Automaton", "DFA.py:State._close"]}
{"id": "C09", "title": "The registry refuses duplicate keys and counts accesses exactly", "statement": "Over any sequence of registrations and lookups, a second registration under the same key fails and changes nothing, a lookup returns the value first registered under that key, and the access count reported for a key equals the number of successful lookups of that key.", "quantifier": "all operation sequences", "why_tests_cant": "history property", "anchors": ["DecoratedFuncDict.py:DecoratedFuncDict"]}
{"id": "C10", "title": "The scanner is maximal-munch and loses no input", "statement": "For every pattern table and every text, if tokenizing succeeds then the matched pieces concatenate to the text, each piece is the unique longest match at its position, and the tokens delivered are exactly those of the patterns with a response; tokenizing fails exactly when at some reached position there is no match or two patterns tie for longest.", "quantifier": "all pattern tables, all texts", "why_tests_cant": "infinite texts; tie/longest behaviour is position-dependent", "anchors": ["Tokenizer.py:Tokenizer"]}
{"id": "C11", "title": "Section scanning partitions the children or reports", "statement": "Scanning the children of a section against a pattern list either consumes every child, in order, splitting the sequence into consecutive units each matching its pattern, where each unit uses the first pattern that matches at that point; or it reports exactly the first child at which nothing matches and returns nothing.", "quantifier": "all node sequences and pattern lists", "why_tests_cant": "unbounded sequences", "anchors": ["NodeGrammar.py:NodeGrammar.scan_section"]}
{"id": "C12", "title": "The HTML tree tiles the source text", "statement": "If parsing the spec text completes, then concatenating the source text of the leaves and of the tags in document order gives back the whole text; every node's extent lies inside its parent's, siblings are disjoint and ordered, and the children of an element tile its inner extent without gap, except that an end-tag reported as mismatched is skipped and leaves a gap of exactly that end-tag.", "quantifier": "all texts", "why_tests_cant": "tree shapes are unbounded", "anchors": ["HTML.py:_parse"]}
{"id": "C13", "title": "Tag balance is diagnosed exactly", "statement": "For a text made of well-formed tags, parsing reports no tag error iff the start and end tags are balanced (void elements excepted), and each mismatch is reported rather than silently repaired.", "quantifier": "all tag sequences", "why_tests_cant": "unbounded nesting", "anchors": ["HTML.py:_parse", "HTML.py:close_open_child"]}
{"id": "C14", "title": "Static subtyping is sound for the set-of-values reading", "statement": "Interpret named types by any assignment of value sets that respects the hierarchy, lists by their elements, records by schema and fields, procedures by their results, unions as unions. Whenever 'A is a subtype of or equal to B' answers yes, every value of A is a value of B. For unions of named types the converse holds too: it answers yes if that is so in all such interpretations. (Procedure parameters are never compared: with the usual reading of procedure types soundness fails, and that is proved.)", "quantifier": "all pairs of types, all interpretations", "why_tests_cant": "there are infinitely many types and interpretations", "anchors": ["static_types.py:Type.is_a_subtype_of_or_equal_to", "static_types.py:member_is_a_subtype_or_equal"]}
{"id": "C15", "title": "Static subtyping is reflexive and transitive", "statement": "The subtype test is reflexive for types without TBD, and transitive: if it answers yes for (A,B) and (B,C), it does not answer no for (A,C). It can fail an assertion instead, which is shown by an example.", "quantifier": "all triples of types", "why_tests_cant": "infinitely many types", "anchors": ["static_types.py:Type.is_a_subtype_of_or_equal_to"]}
{"id": "C16", "title": "Union of types denotes the union", "statement": "The type returned by union_of_types (and by |) has every value of each of its arguments, as long as 'List' and 'List of T' do not both occur; it has no other values, as long as no 'List of T' and no Completion Record type with three fields occurs and named types have only their children's values. Then order and multiplicity of the arguments do not change the result's meaning, and the empty type T_0 is neutral. The two provisos are needed, which is shown by examples.", "quantifier": "all lists of types, all interpretations", "why_tests_cant": "infinitely many types", "anchors": ["static_types.py:union_of_types", "static_types.py:_union_of_hier_memtypes", "static_types.py:_union_of_list_memtypes", "static_types.py:_union_of_record_memtypes"]}
{"id": "C17", "title": "Union of hierarchical types is canonical", "statement": "In the union of named types no member is a subtype of another, and no complete set of siblings is left uncollapsed; the result depends only on the set of arguments.", "quantifier": "all sets of named types over all hierarchies", "why_tests_cant": "all subsets of all trees", "anchors": ["static_types.py:_union_of_hier_memtypes"]}
{"id": "C18", "title": "Splitting a type by another partitions it", "statement": "For unions A and B of named types, A.split_by(B) succeeds and returns (in, out) such that 'in' denotes exactly the values of both A and B, and 'out' exactly those of A that are not in B; TBD is split as the top type is. (For list types it does not partition, which is shown by an example.)", "quantifier": "all pairs of types of all hierarchies, all interpretations", "why_tests_cant": "infinitely many types and hierarchies", "anchors": ["static_types.py:Type.split_by"]}
{"id": "C19", "title": "Indentation tokens are balanced and faithful", "statement": "For every text accepted by the pseudocode tokenizer, the numbers of indent and outdent tokens before any point differ by exactly the current depth (half the difference between the indentation of the current line and that of the line the pseudocode starts on), dents occur only before a line break and as many as the text shows, and at end of input all indents are closed iff the last line is back at the initial indentation. A text is refused for its layout iff some line differs by an odd number of blanks. (The tokenizer itself neither keeps the depth at or above the base nor closes indents at the end.)", "quantifier": "all texts", "why_tests_cant": "unbounded line sequences and depths", "anchors": ["Pseudocode_Parser.py:Tokenizer.tokenize"]}
{"id": "C20", "title": "Grammar files convert to productions one-to-one", "statement": "Converting a grammar file yields, for each left-hand side, one production per alternative in file order; a repeated left-hand side, a non-solitary epsilon, or a used but undefined nonterminal is rejected.", "quantifier": "all grammar files", "why_tests_cant": "unbounded files", "anchors": ["Pseudocode_Parser.py:convert_grammar_string_to_productions"]}
{"id": "C21", "title": "Grammar-parameter expansion enumerates every setting once", "statement": "For a nonterminal with n ≤ 4 parameters the expansion visits all 2^n settings, each exactly once, and a larger count is refused; a right-hand side guarded by [+p]/[~p] survives in exactly the settings that satisfy its guard; an argument list [?p,+q,~r] is resolved to the setting that the spec's notation defines.", "quantifier": "all parameter lists, settings and guards", "why_tests_cant": "combinatorial", "anchors": ["es_parser.py:each_params_setting", "es_parser.py:each_boolean_vector_of_length", "es_parser.py:expand_nt_wrt_params_setting", "es_parser.py:simplify_prod"]}
{"id": "C22", "title": "The Earley parser is sound", "statement": "Whenever the ECMAScript parser returns a tree for a text, the tree is a derivation in the grammar from the goal symbol and its leaves, in order, are exactly the consumed terminals.", "quantifier": "all grammars, all terminal sequences", "why_tests_cant": "infinitely many inputs and grammars; also nullable and left-recursive productions", "anchors": ["es_parser.py:_Earley.run"]}
{"id": "C23", "title": "The Earley parser is complete", "statement": "If a text is derivable from the goal symbol then the parser does not raise a parse error, for every grammar including nullable and cyclic ones; if moreover no nonterminal derives itself alone, it halts and returns a tree. (Where the goal symbol has infinitely many trees over a prefix of the text the parser never returns.)", "quantifier": "all grammars, all terminal sequences", "why_tests_cant": "infinitely many inputs and grammars", "anchors": ["es_parser.py:_Earley.run"]}
{"id": "C24", "title": "Partial parses take the longest acceptable prefix", "statement": "In 'as much as possible' mode the parser returns a derivation of the longest prefix of the input that the goal symbol derives, and raises a parse error exactly when no prefix is derivable.", "quantifier": "all grammars, all terminal sequences", "why_tests_cant": "infinitely many inputs", "anchors": ["es_parser.py:_Earley.run"]}
{"id": "C25", "title": "Automatic semicolon insertion never loops and never changes other tokens", "statement": "A semicolon is inserted only when the offending token is preceded by a line terminator, is '}' or end of input, or the do-while/restricted-production rule applies; at most one is inserted at any point of the token stream, so scanning always progresses; other tokens keep their order.", "quantifier": "all token sequences and all offers", "why_tests_cant": "schedule-like property over all token streams", "anchors": ["es_parser.py:SyntacticTIP.get_next_terminal_instances", "es_parser.py:SyntacticTIP.insert_before_current_token"]}
{"id": "C26", "title": "The grammar-notation parser is sound w.r.t. its PEG", "statement": "If parsing an emu-grammar element succeeds, the tree returned is a legal PEG derivation (ordered choice, greedy repetition) of the text, covering it completely, and indentation is back at its starting level.", "quantifier": "all PEG grammars and texts", "why_tests_cant": "infinitely many inputs", "anchors": ["emu_grammars.py:simple_parse"]}
{"id": "C27", "title": "Right-hand-side matching is sound (and greedily incomplete)", "statement": "If a non-defining right-hand side is accepted as matching a defining one, then it can be obtained from it by dropping omissible items and resolving optionals, and the recorded option bits describe that choice; the converse fails: a legal instance can be rejected because matching is greedy.", "quantifier": "all pairs of right-hand sides", "why_tests_cant": "infinitely many sequences", "anchors": ["emu_grammars.py:u_rhs_matches_d_rhs_", "emu_grammars.py:u_item_matches_d_item", "emu_grammars.py:d_item_doesnt_require_a_matching_u_item"]}
{"id": "C28", "title": "Option-bit expansion covers exactly the compatible strings", "statement": "Expanding a pattern over {0,1,either} lists every compatible bit string exactly once and nothing else.", "quantifier": "all patterns", "why_tests_cant": "exponentially many strings", "anchors": ["emu_grammars.py:each_optbits_covered_by"]}
{"id": "C29", "title": "Reachability checks visit exactly the reachable symbols", "statement": "The worklist in the grammar reachability check and the depth-first walk over operation dependencies mark precisely what is reachable from the starting points, whatever the graph, including cycles and references to undeclared names.", "quantifier": "all finite graphs", "why_tests_cant": "graph shapes unbounded", "anchors": ["emu_grammars.py:check_reachability", "Pseudocode.py:analyze_static_dependencies"]}
{"id": "C30", "title": "Record schemas never declare a field twice along a chain", "statement": "Following any sequence of schema creations and field declarations where a schema's ancestors are declared before its own fields, no field name is declared by two schemas on one inheritance chain; each schema's level is its distance from the root.", "quantifier": "all declaration histories", "why_tests_cant": "history property", "anchors": ["records.py:RecordSchema", "records.py:ensure_RecordSchema"]}
{"id": "C31", "title": "Merged property attributes agree with every source", "statement": "Merging property attributes from several places succeeds iff they agree wherever both speak, and then the result says everything that either says; defaults never override an explicit attribute.", "quantifier": "all attribute maps", "why_tests_cant": "unbounded histories of facts", "anchors": ["intrinsics.py:merge_propAttrs", "intrinsics.py:apply_defaults_for_property"]}
{"id": "C32", "title": "Prototype-based creation order respects prototypes", "statement": "The creation rank of every intrinsic is one more than its prototype's rank, so listing by rank lists a prototype before everything that inherits from it, for every acyclic prototype graph.", "quantifier": "all acyclic prototype assignments", "why_tests_cant": "unbounded graphs", "anchors": ["intrinsics.py:get_creation_rank", "intrinsics.py:determine_creation_order"]}
{"id": "C33", "title": "Joining type environments over-approximates every branch", "statement": "After a branch join, every variable's static type covers its type in each branch that can reach the join; a variable missing in a branch is recorded as possibly unset; unreachable branches contribute nothing; the conjunction of environments never drops a value allowed by both.", "quantifier": "all finite families of environments", "why_tests_cant": "unbounded families, all interpretations", "anchors": ["pseudocode_semantics.py:envs_or", "pseudocode_semantics.py:envs_and"]}
{"id": "C34", "title": "Type tests split an environment soundly", "statement": "with_type_test returns a pair of environments such that a value satisfying the test is covered by the first and a value failing it is covered by the second, for any bracketing of the target set between the two given types.", "quantifier": "all types, brackets and values", "why_tests_cant": "infinitely many types", "anchors": ["pseudocode_semantics.py:Env.with_type_test", "pseudocode_semantics.py:tc_logical"]}
{"id": "C35", "title": "Loop analysis returns only at a fixed point", "statement": "When the analysis of a loop returns, one more analysis of the body from the loop-head environment, merged with the pre-loop environment, reproduces the loop-head environment; the errors kept are exactly those of the final pass.", "quantifier": "all loop bodies (as transformers)", "why_tests_cant": "all transformers; the number of passes is data dependent", "anchors": ["pseudocode_semantics.py:tc_loop"]}
{"id": "C36", "title": "Interpreter variables are block-scoped and unambiguous", "statement": "Over any execution of contour pushes, pops, lets, sets and gets, no name is visible twice; get returns the latest let/set value; leaving a contour makes its names disappear and leaves outer names with their latest values.", "quantifier": "all operation sequences", "why_tests_cant": "history property", "anchors": ["pseudocode_semantics.py:Frame"]}
{"id": "C37", "title": "Early-error traversal visits the right nodes in order", "statement": "Early-error checking applies each rule list exactly once to every node not under a covered node, in preorder, shifting to the covering parse where one was recorded, and a nested call restores the outer call's list.", "quantifier": "all parse trees", "why_tests_cant": "unbounded trees", "anchors": ["pseudocode_semantics.py:traverse_for_early_errors", "pseudocode_semantics.py:get_early_errors_in"]}
{"id": "C38", "title": "Section numbers are unique and ordered", "statement": "Numbering a section tree gives every section a number distinct from all others; a section's number extends its parent's; siblings are numbered in document order; the number sequence locates the section in the tree.", "quantifier": "all section trees", "why_tests_cant": "unbounded trees", "anchors": ["Section.py:_set_section_identification_r", "Section.py:_make_section_tree_r"]}
{"id": "C39", "title": "Variable checks report exactly the undefined and the unused", "statement": "The check reports a name as undefined iff it is used and never defined, and as unused iff it is defined, never used and not excused; each name at most once per kind, in sorted order.", "quantifier": "all algorithms", "why_tests_cant": "unbounded trees", "anchors": ["Pseudocode.py:check_vars_in_anode"]}
{"id": "C40", "title": "Annex A reordering is a permutation", "statement": "Moving a block of productions to a new place keeps every production exactly once and preserves the relative order inside and outside the block.", "quantifier": "all lists and moves", "why_tests_cant": "unbounded lists", "anchors": ["emu_grammars.py:approximate_annex_A"]}
{"id": "C41", "title": "The static analysis of an algorithm is right about its executions", "statement": "Given that atomic expressions, conditions and value descriptions are analysed correctly and no undefined variable is reported: whatever path an execution takes through lets, sets, assertions, conditionals, loops and returns, after each command the environment computed for it is right about the values of the variables; an execution that runs off the end has been warned about; a returned value has the result type computed for the algorithm, and, if no return was complained about, the expected return type.", "quantifier": "all algorithms, all environments, all executions, all interpretations of the types", "why_tests_cant": "executions are unbounded and the analysis makes a data-dependent number of passes", "anchors": ["pseudocode_semantics.py:tc_nonvalue", "pseudocode_semantics.py:tc_proc", "pseudocode_semantics.py:tc_loop", "pseudocode_semantics.py:Env.set_A_to_B", "pseudocode_semantics.py:Env.plus_new_entry", "pseudocode_semantics.py:proc_add_return"]}
{"id": "C42", "title": "Executing an operation does what its text says, and cleans up", "statement": "Calling an operation binds its parameters, executes its commands in order with block-scoped variables, short-circuit conditions and early exit from loops and sequences on Return, and gives the returned value (or the stand-in value when something referred to does not exist); afterwards the stack of frames and the list of errors are exactly as before the call.", "quantifier": "all definitions, all arguments, all depths of calls, all primitive operations", "why_tests_cant": "programs, loops and nesting are unbounded", "anchors": ["pseudocode_semantics.py:EXEC", "pseudocode_semantics.py:execute_alg_defn", "pseudocode_semantics.py:Frame.run"]}
{"id": "C43", "title": "Early error rules report exactly the errors of the node", "statement": "Applying a list of early error rules to a node appends, in the order of the rules, one error for each time the condition of a rule holds; a rule that refers to something nonexistent reports no more errors and does not disturb the other rules; rules without embedded algorithms report the same errors together as each of them alone.", "quantifier": "all lists of rules, all nodes, all primitive conditions", "why_tests_cant": "depends on state left behind by earlier rules", "anchors": ["pseudocode_semantics.py:Frame.run", "pseudocode_semantics.py:it_is_a_syntax_error", "pseudocode_semantics.py:execute_alg_defn"]}
{"id": "C44", "title": "Lists of parameters are read as written", "statement": "A listing of required parameters followed by nested optional ones, or by a rest parameter, is read as exactly those parameters in order and with those kinds; whatever text is accepted consists of the names in order plus punctuation, and after an optional parameter only optional ones follow.", "quantifier": "all lists of names, all texts", "why_tests_cant": "unbounded nesting and lengths", "anchors": ["Section.py:convert_parameter_listing_to_params"]}
{"id": "C45", "title": "A pipeline of alternatives gives all combinations", "statement": "Applying a pipeline, where each step is nothing, a function, or a choice between functions and nothing, gives exactly the set of strings obtainable by choosing one alternative at each step, each once.", "quantifier": "all pipelines, all functions", "why_tests_cant": "the number of combinations is unbounded", "anchors": ["Section.py:apply_pipeline"]}
{"id": "C46", "title": "Items of a left-recursive list come out in order", "statement": "Going through a left-recursive list in a syntax tree gives its items once each, in the order of the text, and fails on anything else.", "quantifier": "all syntax trees", "why_tests_cant": "unbounded lists", "anchors": ["Section.py:each_item_in_left_recursive_list", "pseudocode_semantics.py:each_item_in_left_recursive_list"]}
{"id": "C47", "title": "The report on the coverage of a syntax-directed operation is right", "statement": "The report lists a production (with a choice of its optional symbols) as needing a rule exactly if it is reachable from the nonterminals of the invocations through rule-less chain productions, has no rule, isn't excepted and isn't a chain production; it lists as handled by several rules, and as unused, exactly the right ones. Where there is no complaint, every invocation on any parse tree of these nonterminals finds exactly one definition; where there is one, every instance of the production is met by an invocation on some parse tree, and is found to lack a definition. Only nonterminals may be optional.", "quantifier": "all grammars, all sets of definitions and exceptions, all parse trees", "why_tests_cant": "grammars, chains and parse trees are unbounded", "anchors": ["Pseudocode.py:check_sdo_coverage", "Pseudocode.py:analyze_sdo_coverage_info", "Pseudocode.py:each_opt_combo", "Pseudocode.py:required_nts_in", "emu_grammars.py:reduce_rhs", "es_parser.py:ES_ParseNode"]}
{"id": "C48", "title": "Invoking a syntax-directed operation follows the chain rule", "statement": "An invocation on a parse node executes the definition of the first node, going down through chain productions, that has a definition, with that node as the focus; it fails if that node has several; it is an error exactly if the chain ends without a definition. An operation with a default definition uses the node's own definition or else the default.", "quantifier": "all parse trees, all sets of definitions", "why_tests_cant": "chains are unbounded", "anchors": ["pseudocode_semantics.py:execute_sdo_invocation", "es_parser.py:ES_ParseNode"]}
{"id": "C49", "title": "The frontmatter of a test is read according to its grammar", "statement": "For every text, reading the frontmatter of a test gives a value exactly if the text is a block collection (sequence or mapping, with scalars, flow sequences, blocks of text and nested collections, to any depth, blank lines anywhere between), and then the value is the one the grammar gives it, with all keys, items and lines.", "quantifier": "all texts", "why_tests_cant": "nesting, numbers of entries and indentations are unbounded", "anchors": ["test262.py:parse_frontmatter"]}
{"id": "C50", "title": "The validation of the markup reports exactly the faults", "statement": "For every document and all tables of elements and attributes, a message is issued exactly when there is a node with that fault: gaps of spaces, entities and characters that should be entities, spaces at the ends of content, missing, unexpected or ill-valued attributes, mixed block and inline content, content that does not match the model. The validation finishes if all cells are in tables.", "quantifier": "all documents, all tables", "why_tests_cant": "trees and texts are unbounded", "anchors": ["HTML.py:_validate", "HTML.py:HNode", "HTML.py:element_info", "HTML.py:attribute_info"]}
{"id": "C51", "title": "Ids, references and defined terms are checked completely", "statement": "For every document, the check of ids issues exactly the messages there is a reason for: ids declared twice, ids with the wrong prefix for their element, ids that do not fit the operation, references to ids that are not declared, needless references to definitions, references to odd elements, and ids never referred to. It stops the program exactly in the listed cases. Afterwards each id stands for its last declaration, and the file of ids lists every current and former id once. The table of defined terms is made exactly if no term or variant is defined twice, and maps each to its definition.", "quantifier": "all documents, all ids", "why_tests_cant": "trees, ids and references are unbounded", "anchors": ["analyze_spec.py:check_ids", "analyze_spec.py:check_dfns"]}
{"id": "C52", "title": "What a table says is read completely", "statement": "For every table, reading it gives its caption, a header row and all data rows in order, each with its cells, one text for each column it covers, and a dict that maps the text of each column's header to what the cell in that column says (backquotes, escapes and entities removed). Reading succeeds exactly for tables with one caption, a header row first, only data rows after it, only cells in rows, and as many columns as the header (with the two exceptions). Every text without ampersands can be written so that a cell says it.", "quantifier": "all tables, all texts", "why_tests_cant": "numbers of rows, cells and texts are unbounded", "anchors": ["emu_tables.py:analyze_table", "emu_tables.py:quasi_ecmarkdown", "emu_tables.py:TableRow"]}
{"id": "C53", "title": "Type errors are reported against settled types", "statement": "For every set of operations and every way their bodies are analysed, if the type analysis finishes, then the errors and warnings it reports are exactly those that analysing each header against the final declared types gives, in the order of levels, clusters, members and headers: none found against provisional types, none twice, none left out; and analysing again would change no declared type. Types the author stated never change, in any outcome. Reported changes of a type lead from the written TBD to the final type, at most four per name. It gives up only after at least five changes in one cluster, never when all types are stated. Callers read of an operation what its headers finally declare.", "quantifier": "all sets of operations and headers, all body analyses that read only operations called, all levels computed from the calls", "why_tests_cant": "numbers of operations, headers and cycles are unbounded, and so are the ways types influence each other", "anchors": ["pseudocode_semantics.py:do_STA_on_dependency_clusters", "pseudocode_semantics.py:tc_alg", "pseudocode_semantics.py:tc_header", "pseudocode_semantics.py:summarize_headers", "pseudocode_semantics.py:TypedAlgHeader.change_declared_type"]}
{"id": "C54", "title": "References to steps are reported completely, and where they are", "statement": "For every document that HTML parsing accepts, if the report on references to steps comes out, it has, in order of position, an entry for each step referred to at each place where the word 'step' or 'steps' (in any case, not inside a word) is followed by a space and a digit or a tag: with the innermost section around the reference, its line, the section of the algorithm that declares the step, and the first line there with that id. Nothing else is in it, and the headings lose nothing. The report fails exactly if one of these places has no such entries. The node at an offset is found exactly unless an element with content ends just there.", "quantifier": "all documents, all offsets, all tables of ids", "why_tests_cant": "documents, nesting, positions of references and forms of lists are unbounded, and boundaries between nodes matter", "anchors": ["Pseudocode.py:check_step_references", "Pseudocode.py:each_step_ref", "Pseudocode.py:find_deepest_node_covering_posn", "HTML.py:HNode.closest_containing_section"]}
{"id": "C55", "title": "The productions that define the grammar are checked completely", "statement": "For every document, processing its defining productions stops exactly if a production is malformed, has a bad name, disagrees in colons with another one for the same nonterminal, repeats one of the same arena (main body, annex B, examples), or has a right-hand side that can't be judged. Otherwise the messages are exactly the faults of the mentions of nonterminals in right-hand sides: undefined ones, arguments that aren't the parameters, missing or misused signs. The table maps each nonterminal and arena to its production, with the right-hand sides of the main body before those of an augmenting production. The four grammars then have exactly the nonterminals of their level that count in their arena, and their goal symbols and named terminals are exactly the names that occur on one side only.", "quantifier": "all lists of defining productions", "why_tests_cant": "numbers of productions, right-hand sides and arguments are unbounded, and every production is checked against all others", "anchors": ["emu_grammars.py:process_defining_emu_grammars", "emu_grammars.py:defining_production_check_left", "emu_grammars.py:defining_production_check_right", "emu_grammars.py:NonterminalInfo", "emu_grammars.py:make_grammars", "emu_grammars.py:Grammar"]}
{"id": "C56", "title": "The uses of productions are checked against the definitions, completely", "statement": "For every document whose definitions were processed and every list of grammar elements that aren't definitions: the check stops exactly if a production is for a nonterminal that is defined only elsewhere, repeats parameters in a section without id, or has a description of characters or a 'but only if' on its right. Otherwise each production is compared with the one that counts for its nonterminal in that part of the document. The messages are exactly those due on colons, parameters, arguments, annotations, right-hand sides that match none or several of the definition, order and repetition, and come in a fixed order. Each right-hand side is linked to the first of the definition that it matches. The production use keys are exactly the nonterminal, the reduced right-hand side and the option bits of the matches, and reduced right-hand sides are the same exactly if they differ only in annotations and arguments. A use in the usual form gets no message.", "quantifier": "all definitions, all elements with all their productions", "why_tests_cant": "numbers of productions, right-hand sides and items are unbounded, and all pairs of right-hand sides are compared", "anchors": ["emu_grammars.py:check_non_defining_prodns", "emu_grammars.py:u_rhs_matches_d_rhs_", "emu_grammars.py:reduce_rhs", "emu_grammars.py:parse_emu_grammar"]}
{"id": "C57", "title": "References to nonterminals, in the text and in annex A, are checked against the definitions", "statement": "For every document whose definitions were processed and every text: what is taken for references is the only list, from left to right and without overlaps, of stretches between bars that begin with a character of words and have another. The check stops exactly if one with arguments is to a defined nonterminal and has an empty argument, or the nonterminal has no definition that counts there. Otherwise the messages are, reference by reference, exactly those due: malformed, unrecognized, arguments without a sign, and names that aren't the parameters of the definition that counts before or after the mark of annex B. Likewise every list of references in annex A: it stops exactly at one without a name, to something the main body doesn't define, or to a part before the whole; otherwise there is a warning at each repeated reference and an error at each definition of the main body that isn't referenced, in the order of the text.", "quantifier": "all definitions, all texts, all lists of references", "why_tests_cant": "texts are unbounded, and a reference can be missed because of what is anywhere before it", "anchors": ["emu_grammars.py:check_nonterminal_refs", "emu_grammars.py:check_emu_prodrefs"]}
{"id": "C58", "title": "A heading of a definition, and a condition on a parse node, mean exactly the instances of the productions they show", "statement": "For every document whose definitions were processed, every grammar element whose productions are of the main body, and every parse node: a condition that the node is that element holds exactly if the node is an instance of one of its productions, that is, it was made with a right-hand side of the main definition (or one with the same symbols) that the element shows, and each optional symbol is there, not there, or either, as shown. The node it is said to be or to derive by unit rules is the nearest such node on the way down by only children; the number of such nodes contained in it is the number of places in the tree with one; containing a nonterminal is having a place for it. An invocation of an operation executes a definition exactly if its heading is the only one that shows the first node on the chain of only nonterminals that any heading shows; with a default, the heading of the node itself or else the default. If the coverage report has no complaint then every invocation on a parse tree executes exactly one; and a heading is reported unused exactly if its nonterminal can't be reached.", "quantifier": "all documents, all elements and headings, all parse trees", "why_tests_cant": "the link goes through keys that three programs make separately (from headings, from parses, from the grammar); they must agree on all grammars and trees", "anchors": ["pseudocode_semantics.py:pnode_unit_derives_a_node_with_puk", "pseudocode_semantics.py:execute_sdo_invocation", "Section.py:get_puk_set", "Pseudocode.py:check_sdo_coverage", "es_parser.py:ES_ParseNode.contains_a", "es_parser.py:ES_ParseNode.unit_derives_a", "es_parser.py:ES_ParseNode.preorder_traverse"]}
{"id": "C59", "title": "The report on dependencies lists exactly the calls, what they reach, and what looks like runtime semantics", "statement": "For every set of operations and functions: the report has, for each in the order of names, exactly the operations it calls, sorted; then exactly the operations that are reached from the starting points and not declared, those declared and not reached, those with conflicting labels, those labelled static semantics that can't be reached from the static starting points and the reverse, the calls between labelled and unlabelled ones, and the labelled ones which look like runtime semantics directly or through what they call, and the reverse. The order in which sets are gone through makes no difference. The report is written unless an algorithm is embedded outside of the early errors, or HostLoadImportedModule has a definition. Each operation gets the list of exactly its invocations in the order of the text. An invocation of an operation on syntax is reported exactly if it has the word 'the' before the name and shouldn't, or the reverse; an optional parameter exactly if the operation is never invoked, or all or none of the invocations supply an argument for it.", "quantifier": "all sets of algorithms with different names, all trees and nesting, all orders of sets", "why_tests_cant": "reachability and closure over arbitrary, cyclic call graphs, and independence from the order of hash sets", "anchors": ["Pseudocode.py:analyze_static_dependencies", "Pseudocode.py:check_the_sdo_name", "Pseudocode.py:check_optional_parameters", "Pseudocode.py:exes_in_exlist_opt", "Pseudocode_Parser.py:ANode.each_descendant_or_self", "Pseudocode_Parser.py:ANode.closest_containing"]}
{"id": "C60", "title": "Every node of an algorithm gets exactly the operations it invokes and the element it stands for", "statement": "For every syntax tree and every element of the document: a node is annotated with names of operations and arguments exactly if it has one of the forms of an invocation, with the names and the arguments that the form has, in order; a node has no two readings. The k-th node that stands for an element gets the tree of the k-th element, in the order of the text; if their number or kinds differ, the program stops, and it also stops at a node of an unknown form, and otherwise not. The annotated tree is determined by that. No invocation embeds a tree, which the report on dependencies needs.", "quantifier": "all syntax trees, elements and depths of nesting", "why_tests_cant": "two traversals of trees of any depth have to give lists that correspond; lists of expressions nest to any depth", "anchors": ["Pseudocode.py:connect_anodes_to_hnodes", "Pseudocode.py:annotate_invocations", "Pseudocode.py:exes_in_exlist", "Pseudocode.py:exes_in_exlist_opt", "HTML.py:HNode.each_descendant", "Pseudocode_Parser.py:ANode.each_descendant"]}
{"id": "C61", "title": "The checks of style report exactly the If-commands and the descriptions of values that break the rules", "statement": "For every specification: an If-command in several lines is reported exactly if two of its arms, over all else-ifs, are of different kinds; one in a single line exactly if its arms do not all start with the same phrase (return, or let or set of the same variable). A description of a choice between values is reported exactly if one value is named before a kind of values, and reported exactly if the words before it are not those that the context and the choices call for. The messages come in the order of the names of the algorithms, or of the document, and then of the text. The longest common prefix is found from the least and the greatest string. For If-commands of the grammar the check does not stop.", "quantifier": "all specifications, syntax trees, chains of else-ifs and texts of arms", "why_tests_cant": "chains of else-ifs have any length; the prefix of all arms is taken from only two of them; the words depend on two nodes above", "anchors": ["Pseudocode.py:check_for_unbalanced_ifs", "Pseudocode.py:each_if_arm", "Pseudocode.py:check_value_descriptions", "Pseudocode.py:check_val_desc_disjunction", "Pseudocode.py:single_or_multi"]}
{"id": "C62", "title": "The registry of algorithms has one entry for each algorithm that is declared, with its headers in order, and the check of its consistency reports exactly the headers that deviate", "statement": "For every sequence of declarations and headers: the program stops exactly if a header is malformed or two operations, or two built-in functions, of the same name are declared with different species; otherwise the operations and, apart from them, the built-in functions have one entry for each name, in the order of the first declarations, and an entry has exactly the headers of its name, in their order. The name of a header is without markup, missing natures of the parameters of built-in functions are filled in, and no placeholder is left in a description. The check then reports, in the order of the names, exactly the for-phrases that are not those of the section around the header, the headers with another number of parameters than the first, and missing or superfluous return values.", "quantifier": "all sequences of declarations and headers, names, parameters, sections and paragraphs", "why_tests_cant": "the entries depend on the whole history of declarations; an operation and a built-in function can have the same name; replacements can create new occurrences of what is replaced", "anchors": ["algos.py:ensure_alg", "algos.py:AlgHeader", "algos.py:AlgHeader.finish_initialization", "algos.py:check_alg_consistency", "algos.py:Alg"]}
{"id": "C63", "title": "The check of the indentation says exactly what is wrong with the layout of the elements of a document", "statement": "For every text that can be parsed: the elements that are looked at are those of the document and, inside those, the children of each element in several lines that has elements of the block level in it and is not parsed as a whole; each is expected two deeper than the line of the start tag around it, or as deep in html, head, body, and in thead and tbody whose first line is not indented. The messages are exactly those about start and end tags that have something before them in their line or another indentation, and those about the lines of the content of comments, of code and of elements without elements of the block level. Lines of a content are read one after the other against the levels that are open; nothing is said of them exactly if the first has the indentation expected, each is an even number of spaces deeper than that, and none is more than two deeper than the line before. The program stops exactly at an element in several lines that has no end tag and at a listing that is not of class javascript.", "quantifier": "all texts that can be parsed, tables of the kinds of elements, and notions of white space that include spaces and newlines", "why_tests_cant": "depends on the nesting of elements and on the history of the lines read before; the lines can be anything", "anchors": ["analyze_spec.py:check_indentation", "analyze_spec.py:check_indentation_for_node"]}
{"id": "C64", "title": "The checks of blank lines, trailing white space and characters report exactly the places in question", "statement": "For every text: a place is reported, once and in the order of the text, exactly if there two or more blank lines after a line end, or a blank line after a line starts that is followed by the end tag of a clause, or spaces and tabs at the end of a line start, or there is a character that is neither a newline nor printable ASCII nor one of those listed.", "quantifier": "all texts", "why_tests_cant": "the matches of a regular expression exclude overlaps, so what is found depends on what was found before", "anchors": ["analyze_spec.py:check_for_extra_blank_lines", "analyze_spec.py:check_trailing_whitespace", "analyze_spec.py:check_characters"]}
{"id": "C65", "title": "References to the nonterminals of a production are resolved to what they mean, and the analysis of them is sound", "statement": "For every grammar and every node of a tree of it: what each nonterminal stands for at the node is unique, and executing a reference gives exactly what it means: the only occurrence, the occurrence with the number given if there are several, the node itself if the nonterminal is only on the left-hand side, the child for 'derived', and one of the two for the productions listed where it is on both sides; anything else stops the program. For every list of productions, the analysis of a reference gives up exactly if it doesn't fit one of them, complains exactly at those where it is ambiguous, and gives a type with 'not present' exactly if one of them allows for that. A reference the analysis has no objections to can be resolved at each node shown by one of the productions with all occurrences (several, if it is by number), to a node with this symbol, or to nothing if the type says so. A condition on the production of a node makes its children known exactly if the node is known and the children are nonterminals with distinct symbols that are not known; afterwards references to them give the children, and others give what they gave.", "quantifier": "all grammars with plain names, trees of them, references, lists of productions and known nodes", "why_tests_cant": "connects a static analysis of productions with the execution on all trees of a grammar", "anchors": ["pseudocode_semantics.py:_make_focus_map", "pseudocode_semantics.py:augment_focus_map", "pseudocode_semantics.py:resolve_focus_reference", "pseudocode_semantics.py:s_resolve_focus_reference"]}
{"id": "C66", "title": "The title built for an operation can be read back, and the id of its section is checked against it", "statement": "For every kind of operation, name and list of parameters: the title is built exactly if the name has the form of that kind. Reading the title back gives the same names of parameters, all optional from the first optional one on, so if no required parameter comes after an optional one, exactly the parameters. The id that is accepted is, for host-defined and implementation-defined operations, the one made from the name; for numeric methods the one made from the type and the name; for methods of environment records the one made of parent, name and the former names of the parameters, without underscores; and for internal methods likewise.", "quantifier": "all kinds, names and lists of parameters", "why_tests_cant": "a round trip and an exact decision over all names and parameters", "anchors": ["Section.py:_handle_structured_header", "Section.py:check_id", "Section.py:extract_param_names", "Section.py:convert_parameter_listing_to_params"]}
{"id": "C67", "title": "Titles, the attribute aoid and the order of properties are reported exactly if they are wrong", "statement": "For every title: the check stops exactly at a second opening or closing parenthesis; otherwise it reports exactly the first word that begins with a small letter (unless it begins like one of the small words, or the parent is the list of terms), the first bracket before an @ if there is no reference to a well-known symbol, and the opening parenthesis if the title doesn't end with a list of parameters (one title excepted). For every section: the attribute aoid is expected exactly for clauses of relations of the memory model, and missing, wrong and unexpected ones are reported. For every section about properties: a child is reported exactly if its key isn't greater than that of the last property before it, so nothing is reported exactly if the keys increase strictly; the key is in small letters, that of a getter is that of the property, and properties named by symbols come last except for the prototype of regular expressions.", "quantifier": "all titles, sections and lists of children", "why_tests_cant": "exact characterization over all strings and all lists of children", "anchors": ["Section.py:check_section_title", "Section.py:_check_aoids", "Section.py:_check_section_order"]}
{"id": "C68", "title": "The arguments of a call are checked against its parameters", "statement": "For every list of parameters and arguments: the analysis stops if there are more arguments than parameters. Otherwise, where types are given by names, the messages are exactly those of the arguments themselves, one for each argument some of whose values its parameter doesn't accept, and one for each parameter that is left out although it isn't optional, in order; and the environment afterwards is right whenever those of the arguments are. Where types are also of lists, records or procedures, if no parameter is complained of then each one left out is optional, and each argument fits its parameter, except that a List of anything is let through where a List of something is wanted.", "quantifier": "all parameters, arguments, environments and interpretations of the names", "why_tests_cant": "exactness over all types and environments, by induction over the parameters", "anchors": ["pseudocode_semantics.py:tc_args", "pseudocode_semantics.py:ensure_expr_is_of_type_"]}
{"id": "C69", "title": "The type of an expression is checked against the expected one, and appending to a list keeps the environment right", "statement": "For every expression, expected type and environment: expecting a type that isn't determined stops. An expression whose type isn't determined gets the expected one. Where types are given by names, nothing is said exactly if all values of the expression's type are of the expected one; otherwise a message is given, the analysis stops on a null, leaves the type as it is for undefined and empty lists, and replaces it by the expected one for everything else. Asserting a type stops exactly if some value isn't of it. If nothing is said of appending an item to a list whose static type says more than List, the environment afterwards is right about the longer list and all other variables.", "quantifier": "all expressions, types, environments and stores", "why_tests_cant": "soundness against the values at run time, over all environments and stores", "anchors": ["pseudocode_semantics.py:assert_expr_is_of_type", "pseudocode_semantics.py:ensure_expr_is_of_type_", "pseudocode_semantics.py:ensure_A_can_be_element_of_list_B"]}
{"id": "C70", "title": "Arithmetic gets the right type", "statement": "For every arithmetic expression of literals, variables and other expressions, with sums, products, negation, powers, remainders, clamping, min, max, floor, truncate, abs, logarithms and the conversions between Numbers, BigInts and mathematical values: if its analysis gives no message, then every value it can have in a store the environment is right about is of the static type that is given, and the environment afterwards is right. This is for executions with what the analysis takes for granted: no overflow of Numbers, no division of Numbers by zero, infinities are multiplied and divided by positive Numbers and not negated, exponents aren't negative, and not all operands of min (max) are +∞ (-∞). No entry of the table of arithmetic is wider than it must be, and what its complaints say of operands is so.", "quantifier": "all expressions, environments, stores, and ordered fields of reals", "why_tests_cant": "soundness against exact values, over all values of each type, by induction over expressions", "anchors": ["pseudocode_semantics.py:type_arithmetic", "pseudocode_semantics.py:s_expr"]}
{"id": "C71", "title": "Comparisons of numbers tell what is known in each branch", "statement": "For every comparison of two arithmetic expressions: if its analysis gives no message, the environment for the case that it holds is right whenever it holds, the one for the case that it doesn't is right whenever it doesn't, and the two values are of the same kind, with no NaN (except +∞ > a finite Number, which is let through). The table of comparisons says true, false or error possible for two types exactly if there are such values of those types.", "quantifier": "all comparisons, environments, stores, and all pairs of numeric types in the table", "why_tests_cant": "soundness in both branches over all values, and exactness of each verdict", "anchors": ["pseudocode_semantics.py:s_cond", "pseudocode_semantics.py:check_comparison"]}
{"id": "C72", "title": "Chained comparisons and interval tests tell what is known", "statement": "For every chain like a ≤ b ≤ c whose analysis gives no message: if it holds and its comparators go the same way, the environment for that case is right. For every test whether a variable is, or isn't, in an interval: the bounds are integers, and the environments for both cases are right, whether or not the upper bound belongs to the interval.", "quantifier": "all expressions, environments and stores", "why_tests_cant": "soundness against the values at run time, over all values including infinities", "anchors": ["pseudocode_semantics.py:s_cond"]}
{"id": "C73", "title": "Executing arithmetic gives its value", "statement": "For every arithmetic expression whose execution gives an integer, from integers for its variables and other expressions: that integer is a value of the expression, where modulo is as ECMA-262 defines it for operands of all signs. An executed comparison, or chain of two, answers whether it holds; which comparators can be executed is exactly a given list.", "quantifier": "all expressions and all integers", "why_tests_cant": "exactness over all integers, including negative operands of modulo", "anchors": ["pseudocode_semantics.py:d_exec", "pseudocode_semantics.py:ES_Mathnum"]}
{"id": "C74", "title": "Every way to speak of an intrinsic object gives its one name", "statement": "For every phrase for an intrinsic object (a name between percent signs, a path of properties with string and symbol keys, an accessor of one, 'the X constructor / object / function', '(the) X prototype (object)', '(the) %X% prototype object', 'the %X.y% (intrinsic) object', 'the prototype of X iterator objects', and eight idioms): the percent-delimited name that is found is the one the conventions give it, no text can be read as two phrases with different names, and anything else is refused. Two paths get the same name only if they start with the same object and have the same keys. A name that was found is its own name, unless it has a symbol in it or is the path of one of the two generator prototypes.", "quantifier": "all texts", "why_tests_cant": "exactness over all texts, with ten overlapping patterns tried one after another", "anchors": ["intrinsics.py:get_pdn", "intrinsics.py:normalize_property_path"]}
{"id": "C75", "title": "A name of a property is split into the object and the key", "statement": "For every text: it is split into a container and a key just if it is a quoted key, a well-known symbol, a single word, or a path of at least two components, each with or without the optional spaces at brackets; the container is the path without its last component, and the key is that component, as a literal. The split is unique. A sentence of a section is accepted as being about the property of the section just if the key it names is that one and the container it names, if any, is that one; backticks don't matter.", "quantifier": "all texts", "why_tests_cant": "exactness over all texts, paths being of any length", "anchors": ["Section.py:split_prop_path", "Section.py:confirm_this_property", "Section.py:detick"]}
{"id": "C76", "title": "The shorthands ? and ! give the values that completions contain", "statement": "For every operand whose type is a union of types of Completion Records and other types: the type given to '? E' or '! E' has every value that a normal completion of E contains, the environment given is right about the variables afterwards, every abrupt completion that '?' returns is recorded among the operation's returns, and is as the operation should return unless there is a message. The messages are exactly the deserved ones: no part of the type is a Completion Record; a part is not; with '?', no part is abrupt, or none is normal. After an operation that validates its first argument, that argument is known to be of the validated type. The analysis stops at '!' exactly if the operand has Completion Records and no normal ones.", "quantifier": "all operands, types, environments, contexts and stores", "why_tests_cant": "soundness over all types and stores, with a type split in two ways", "anchors": ["pseudocode_semantics.py:handle_completion_record_shorthand", "static_types.py:s_dot_field", "static_types.py:RecordType.type_of_field_named"]}
{"id": "C77", "title": "Every early return is recorded", "statement": "For every context: what is returned of a value of a type is recorded, as a normal completion if the operation returns Completion Records and the value is not one, and there is a message unless all values recorded are as the operation should return. This holds of 'Throw', after which control goes no further, of 'IfAbruptCloseIterator' and the like, where the abrupt completion and any throw completion may be returned, and of 'IfAbruptRejectPromise', where a promise is. After the last two, the variable has what its normal completion contains; there is a complaint exactly if it cannot be abrupt.", "quantifier": "all operands, types, environments, contexts and stores", "why_tests_cant": "soundness over all types and stores", "anchors": ["pseudocode_semantics.py:proc_add_return", "pseudocode_semantics.py:handle_completion_record_shorthand", "pseudocode_semantics.py:T_abrupt_completion"]}
{"id": "C78", "title": "Every algorithm of a section becomes one definition", "statement": "For every section of the document: in the section of a syntax-directed operation, either every block is in its place (a grammar right before an algorithm, an algorithm right after a grammar or after the sentence for the default, and otherwise notes, tables and paragraphs) and there is exactly one definition for each algorithm, in order, for the grammar before it; or there is a message at the first block that is not in its place, and there are no definitions. The same holds of early errors, with one definition for each list, having all its items as rules, and of rules that are items of lists. Any other operation has exactly one algorithm, which is its definition, for the type that its header says; only operations that are defined by hosts and implementations, and functions, may have none. Other sections have algorithms only where that is known of them. No node is parsed twice, and every algorithm in the section, at any depth, is parsed, except the example of layout.", "quantifier": "all sections, blocks, texts and types", "why_tests_cant": "the blocks of a section can be in any order, and of any number; units of the scan overlap and depend on their order", "anchors": ["Section.py:_set_section_kind", "Section.py:_handle_early_errors_section", "Section.py:_handle_sdo_section", "Section.py:handle_inline_sdo_section_body", "Section.py:_handle_other_op_section", "Section.py:_handle_other_section", "Section.py:ensure_every_emu_alg_in_section_is_parsed"]}
{"id": "C79", "title": "The kind of a section follows from its title", "statement": "For every section: if it is none of the operations, its kind is the one that its title and the title of its parent call for by a written list of forms of titles, and no title calls for two; the program stops for titles of several lines, and for any but a plain one among the other properties of the global object. The title of a function gives its kind, its name and its parameters just if it is in one of five forms; getters have no parameters. A section that changes what is defined elsewhere (Annex B) defines nothing, and either its blocks are stretches of the forms expected there, and all its algorithms are parsed, or there is a message at the first block where no such stretch starts. A section that just refers to another, and one of a method that is not used, must be the paragraph that says so. Whatever the section, the check of ids knows its kind.", "quantifier": "all titles, parents, numbers and blocks of sections", "why_tests_cant": "titles are matched by a list of 27 overlapping regular expressions, of which the first that matches wins", "anchors": ["Section.py:_handle_function_section", "Section.py:_handle_function_xref_section", "Section.py:_handle_other_section", "Section.py:_handle_changes_section", "Section.py:_handle_oddball_op_section", "Section.py:check_id"]}
{"id": "C80", "title": "Strict mode code is told by what encloses it", "statement": "For every place in a parse tree, possibly in a tree parsed again for a node of another tree, and so on: if the evaluation of early errors gets an answer to whether its code is strict, then it is yes just if the place is in a module's body, a class, or a script or function whose code starts with statements that are only string literals, one of which is exactly 'use strict' in either quotes. There is an answer if the nodes around are as the grammar has them, no asynchronous function, generator or method among them (arrow functions whose body is an expression excepted), and the place is not in parameters parsed on their own; in those cases the program stops unless something further in is strict. A place is found nested in a target just if one is around it with no function or static block between. 'The X containing' is the only X around. The goal symbol is that of the outermost tree. The condition on duplicates holds just if the name occurs twice and two definitions have the name and the form.", "quantifier": "all parse trees, places in them, and chains of trees parsed again", "why_tests_cant": "directives may come after any number of others, at any depth of nested functions, and through cover grammars", "anchors": ["pseudocode_semantics.py:is_strict", "pseudocode_semantics.py:begins_with_a_DP_that_contains_a_USD", "pseudocode_semantics.py:each_item_in_left_recursive_list", "pseudocode_semantics.py:node_is_nested_but_not_crossing_function_boundaries_within_a", "es_parser.py:unit_derives_a", "es_parser.py:each_ancestor"]}
{"id": "C81", "title": "The prose before a built-in function is read sentence by sentence, and compared with the head", "statement": "For every preamble and every head of a built-in function: a paragraph is broken exactly at the spaces after points; sentences that introduce the steps, or are about an attribute, are dropped, all others go into the description in order, with one space between them, 'This method' and 'Given zero or more arguments, this function' at the start being replaced; what is said about the kind, the name, the parameters and the result is exactly what sentences and paragraphs of the known forms say, each value counted once. The head keeps its species and name, and gets the description, and the parameters if it has none. The messages are exactly those for a name that does not fit, for several statements about parameters, for punctuation or nature that differ, and for the variables, sorted, that the description mentions though they are no parameters and are not expected. The program stops just if an element or sentence is not understood, the kind contradicts the species, there are several names, there are no parameters from either side or their names differ, or there is a description already.", "quantifier": "all preambles and all heads", "why_tests_cant": "sentences are free prose of any length, and any number of the rules may apply to one of them", "anchors": ["function_preambles.py:check_header_against_prose", "function_preambles.py:extract_info_from_preamble", "function_preambles.py:ExtractionRules.apply", "function_preambles.py:PreambleInfoHolder.compare_to_header"]}
{"id": "C82", "title": "References to well-known intrinsics are checked against the tables of them", "statement": "For every list of tables: reading them succeeds just if each has the right caption and columns and each row has a name in percent signs, the same name in quotes or nothing, and a known form of description, all names being different; then the intrinsics known are exactly those of the rows, and the properties of the global object exactly those of the rows with a global name. For every text: references are found from the left, not overlapping; there is a message just at those references, placeholders aside, whose intrinsic (up to the first point) is in no table, with its name. What is shown about the global object is exactly the difference between the properties in its section and in the tables, both ways and sorted.", "quantifier": "all tables, texts and sections", "why_tests_cant": "texts may have any number of percent signs, some of them not part of references", "anchors": ["intrinsics.py:each_row_in_wki_table", "intrinsics.py:check_references_to_intrinsics", "Section.py:extract_intrinsic_info_from_WKI_section", "analyze_spec.py:check_globals"]}
{"id": "C83", "title": "What the list in a structured header says is checked against the heading", "statement": "For every heading and list: the list is accepted just if terms and descriptions alternate, the terms are among five known ones and different, and the effects, if given, are user code. The messages about the description are, sentence by sentence and in order: for what follows the last 'returns' or 'returning', unless it is excepted, the types implied by the first wording that fits which the declared return type does not offer, or that no wording fits; and then each mention of a variable that is neither a parameter, nor the first variable in the text of 'for', nor expected. A return type offers its alternatives, through normal completions, and integers for intervals; the check stops only at forms of return types that are not foreseen.", "quantifier": "all operation names, parameter lists, return types and lists", "why_tests_cant": "descriptions have any number of sentences, verbs and variables, and return types nest to any depth", "anchors": ["Section.py:_handle_structured_header"]}
{"id": "C84", "title": "Productions in the definition of a syntax-directed operation are checked to be in the order of the grammar", "statement": "For every list of sections: in each section that defines a syntax-directed operation, taking the right-hand sides of its grammars that are not in algorithms one after another, there is a message just for each that is defined before the one just before it, naming both numbers; so, if all are numbered, there is none just if the whole sequence is in order. The check stops just if a grammar belongs to a nested section, or if of two right-hand sides of the same production next to each other one matches a definition and the other does not.", "quantifier": "all lists of sections with any grammars", "why_tests_cant": "sections have any number of grammars, productions and right-hand sides, in any order", "anchors": ["emu_grammars.py:check_order_of_RHSs_within_each_SDO_clause"]}
{"id": "C85", "title": "Tables, equations and algorithms are checked to be of a known form and parsed", "statement": "For every list of tables whose column titles have no semicolons: the check succeeds just if each table has the columns that its caption asks for, and the cells that are parsed are just those of the column of values, in each row, in order; what is asked depends on the caption only and is never two things. For every list of equations the check succeeds just if those that define something, and no others, are parsed, and are in clauses of no special kind; for every list of algorithms, just if all are parsed and in one of five kinds of elements.", "quantifier": "all lists of tables, equations and algorithms", "why_tests_cant": "captions are arbitrary texts and tables have any number of rows", "anchors": ["analyze_spec.py:check_tables", "Pseudocode.py:check_emu_eqn_coverage", "Pseudocode.py:check_emu_alg_coverage"]}
{"id": "C86", "title": "What the list at the start of an object's section says is taken as facts about that object", "statement": "For every section that begins with a paragraph and a list, with any title and texts: the facts that are put are just those that its sentences say, in their order: other names, kinds of objects, internal slots, properties with their attributes. The title fixes the subject, the first sentence has to name the same subject, and a phrase that is marked in it is another name. The section is refused just if its title, its first sentence, an item or a block that follows is not of a known kind. No section can be read in two ways, and every fact is about the subject, or says that the subject is the value of a property of the global object.", "quantifier": "all titles, paragraphs, lists of items and blocks", "why_tests_cant": "sentences contain arbitrary names and values, and attributes can be given in any number and more than once", "anchors": ["Section.py:extract_intrinsic_info_from_p_ul_section", "Section.py:attr_string_to_dict"]}
{"id": "C87", "title": "A section about a property or a constructor is taken to be about what its title says", "statement": "For every section: which of the five ways of reading it is taken depends only on its title and kind as stated. A section about a property that is inside a section about instances gives nothing. Any other gives, first, the fact that the property named by its title exists: the path in the title, without parameters and without get or set, names container and key, and a single name is a property of the global object, which only the sections for those may hold. If the parent's title says so, the container is also given the name that sentences use. The section defines an object just if it is about an accessor, about a function that no paragraph says to be another one, or about the unscopables. A reference to another section has to be just one paragraph of that form. A section about a call of a constructor makes it a constructor, and a property of the global object unless it is known not to be one. Every other section is refused.", "quantifier": "all titles, kinds of enclosing sections, and blocks", "why_tests_cant": "titles, kinds and nestings are arbitrary texts", "anchors": ["Section.py:extract_intrinsic_info", "Section.py:extract_intrinsic_info_from_property_section", "Section.py:extract_intrinsic_info_from_CallConstruct_section"]}
{"id": "C88", "title": "A sentence about the function of a section is checked for how it names and calls it", "statement": "For every section title, property, object and reference to the function in a sentence: the check stops just if the sentence names another property, or calls the function something although it is neither in a prototype nor known which function it is. Otherwise there is a message about the name just if the function is named and the sentence does not begin with Each, and a message about the noun just if a method is not called method or another function is.", "quantifier": "all titles, properties, objects and references", "why_tests_cant": "names and titles are arbitrary texts", "anchors": ["Section.py:check_this_function"]}
{"id": "C89", "title": "A fact about an intrinsic object is noted under the object's name, for every name of a variable", "statement": "For every section title, fact and lists of names: if the title has no variable, the fact is noted once; if it has one, the fact is noted once for each of its names, in their order, with each phrase that depends on the variable replaced. Every noted fact is about an object by its name; values that refer to an object are noted by its name too, and other values as they are. That a phrase is another name of an object is not noted but checked: it is accepted just if both denote the same object. A fact is refused just if a phrase for an object is not understood, or that check fails. In a section about a variable, with any names, the usual phrases for the prototype objects and the constructors are accepted. A text without the phrases stays as it is.", "quantifier": "all titles, facts, texts and lists of names", "why_tests_cant": "titles, phrases, values and the lists of names come from the specification and are arbitrary texts", "anchors": ["Section.py:section_put_fact", "intrinsics.py:get_pdn"]}
{"id": "C90", "title": "The blocks of a section say something only about the section's own property and object", "statement": "For every section with or without a property and an object, and every sequence of blocks of the known kinds with any groups: the facts and messages are just those that the blocks say, in their order. Every fact is about the section's object, or gives attributes of its property; so a section without a property says nothing about properties of other objects, and one without an object gives only attributes. If there is a property, the object is said to be a function only if it is also made the value, getter or setter of that property. A block is refused just if it names another property, if its attributes cannot be read, if the subsections are not a getter and a setter where they have to be, if the check of the reference to the function stops, or if it needs an object and there is none.", "quantifier": "all sections, properties, objects and sequences of blocks", "why_tests_cant": "the blocks of a section are arbitrary in number, order and content", "anchors": ["Section.py:ispl_units", "Section.py:section_this_property_has_attributes", "Section.py:section_defines_a_function_via"]}
{"id": "C91", "title": "Tuples of different types are never equal and can always be compared", "statement": "For every pair of types made by mynamedtuple with any names and any fields, and all values in the fields: a tuple is the name of its type followed by one argument for each field. Two tuples are equal just if their types have the same name and their fields agree; so tuples of types with different names are never equal. Tuples of types with different names can be compared without an exception, whatever is in their fields, and the names alone decide; for types of the same name the first field in which they differ decides. Each field gives back its argument, T gives the name of the type, items lists them in order, and the text of a tuple shows the name and each field with its value. A type is refused just if a name cannot be used or a field is named twice.", "quantifier": "all names of types and fields, all values of fields and all behaviours of == and < on them", "why_tests_cant": "the fields hold arbitrary values, of which some cannot be compared", "anchors": ["mynamedtuple.py:mynamedtuple", "es_parser.py:T_lit"]}
{"id": "C92", "title": "A code point is matched by a nonterminal just if it can be derived from it", "statement": "For every Unicode data, every grammar with one production for each nonterminal, every nonterminal and every code point: if the test whether a code point is matched by a nonterminal of the lexical grammar gives an answer, it is yes just if the code point can be derived from the nonterminal through productions of one item, where ID_Start and ID_Continue are the sets that the Unicode standard defines from the categories; the answer does not depend on how deep the calls may go, and the early error that asks for it holds just if there is no derivation. There is an answer whenever the productions that can be reached are of the known kinds and are not circular; if the first line of a nonterminal is the nonterminal itself, there is none.", "quantifier": "all Unicode data, grammars, nonterminals and code points", "why_tests_cant": "grammars are nested to any depth, and there are over a million code points", "anchors": ["pseudocode_semantics.py:pychar_matches_lexical_nonterminal", "pseudocode_semantics.py:pychar_matches_rhs", "pseudocode_semantics.py:unicode_character_has_property"]}
{"id": "C93", "title": "The static type of a dotting covers what the field can hold", "statement": "For every lattice of types with its meaning, all declarations of slots, methods and fields that are true and complete, every type of the left side and every name of a field: if the static type of `_x_.[[Name]]` is found, then each value of the type of the left side that has the field is still of the type that the left side has afterwards, and what is in the field is of the type of the dotting, unless a line of the message says that the type of the field is not known for some part; afterwards the left side has no type but what it had and what can have the field; the type of the dotting has no value but what some part allows; the type of the left side is not changed without a message, and each part that is lost, as a whole or in part, is named in a line; and the warning about [[Type]] is given just for completion records. For 'an object with a slot', all objects with the slot are in the upper type and all values of the lower type have the slot.", "quantifier": "all lattices of types, declarations, types of the left side, names of fields and values", "why_tests_cant": "types are unions of any size, and the declarations grow with the specification", "anchors": ["pseudocode_semantics.py:s_expr of {var}.{DSBN}", "pseudocode_semantics.py:tb_for_object_with_slot", "pseudocode_semantics.py:IsomDeclaration"]}
{"id": "C94", "title": "The environments for a comparison are right for both of its outcomes", "statement": "For every environment, all expressions and every state for which the environment is right: for the conditions `x is y`, `x is not y`, `x and y are (not) the same Foo Record`, `x and y are distinct values`, `x and y are both …`, `x is neither … nor …` and `l contains … x such that …`, if both environments are found, then the one for true is right if the condition is true in the state, and the one for false if it is not, if the types of the operands are known and outside of assertions; where `x is y` is so, both are known to be of both types; and where two are the same Foo Record, both are known to be Foo Records. The exceptions are needed: if the type of one side of `x is y` is not known, the environment for the case that they differ can be wrong; and for `does not contain … such that`, the two environments are the wrong way round.", "quantifier": "all environments, expressions, types, states, and any number of descriptions", "why_tests_cant": "states and types are unbounded, and a wrong environment only shows for some values", "anchors": ["pseudocode_semantics.py:s_cond of {EX} is {SETTABLE}", "pseudocode_semantics.py:s_X_and_Y_are_the_same_Foo_Record", "pseudocode_semantics.py:s_cond of {EX} is neither {VAL_DESC} nor {VAL_DESC}", "pseudocode_semantics.py:s_cond of {EX} contains {VAL_DESC} {DEFVAR} such that {CONDITION_1}"]}
{"id": "C95", "title": "A printed tree shows the tree", "statement": "For every parse tree, with nodes that are missing and nodes that cover other trees, and every prefix: what is printed for it determines the tree (which node is the child of which, in what order, and what is covered), if no text of a node has a line break or is the text for a missing node; there is one line for each node and one more for each covered tree, and each line begins with the prefix.", "quantifier": "all trees and prefixes", "why_tests_cant": "trees can be of any depth and width, and that two of them are never printed the same is a statement about all pairs", "anchors": ["shared.py:print_tree"]}
{"id": "C96", "title": "The numbers of tests and of runs", "statement": "For every text of a test file: it is counted just if it has a copyright section, frontmatter and a body with the two markers between them and nowhere else, the frontmatter can be parsed and all that is in it is allowed; it counts for one run if it has one of the flags onlyStrict, noStrict and raw, and for two otherwise. For every directory: the numbers that are printed are the number of tests in it, at any depth, that are counted, and the sum of their runs; and the run ends without an exception just if all names are as they should be and no test fails an assertion.", "quantifier": "all texts of files, and all trees of directories", "why_tests_cant": "files can have any text and directories any depth; a test shows the numbers for one tree only", "anchors": ["test262.py:test_one, test_all_in_dir, main"]}
{"id": "C97", "title": "The types of record constructors", "statement": "For every record constructor: its fields are taken in the order in which they are written. If there is no message, then for a record without a schema the type has just these fields, each with a type to which the value of its expression belongs, and each field is checked with what is known after the ones before it; for a record with a schema the type is the one of that name, each field is declared for it and its value belongs to the declared type; and what is known about the variables afterwards is right. A field that is not declared ends the run. An article before the name makes no difference. That every declared field is given, and only once, is not checked.", "quantifier": "all constructors with any number of fields, all types, environments and values", "why_tests_cant": "constructors can have any number of fields with any expressions; soundness is a statement about all stores and values", "anchors": ["pseudocode_semantics.py:RECORD_CONSTRUCTOR.s_expr, get_fields, get_field_items, exes_in_exlist, exes_in_exlist_opt"]}
{"id": "C98", "title": "Escape sequences in names", "statement": "For every text: replacing the escape sequences gives the text that is meant, in which each escape sequence (\\\\u with four hexadecimal digits, or with any number of them in braces) stands for the code point of that number and all else for itself; so a name comes out the same however its characters are escaped. There is an exception just if the text has no meaning, as when the number of an escape sequence is greater than 10FFFF.", "quantifier": "all texts", "why_tests_cant": "texts can have any length and any mixture of escape sequences, incomplete ones and other characters", "anchors": ["pseudocode_semantics.py:ES_UnicodeCodePoints.replace_backslashUniEscapeSeqs"]}
{"id": "C99", "title": "The fields of record types", "statement": "For every hierarchy of record schemas: the table has an entry for each schema and no others (two schemas with the same name end the run); a record type has just the fields that are declared for its schema or for one above it, each with the type of the declaration that is nearest to the schema; a tweak changes the type of one field of one schema only, and only from the type that is expected; and the types that are found for some names of fields are just those whose fields have these names, in any order.", "quantifier": "all lists of schemas with any chains of declarations, and all lists of names", "why_tests_cant": "hierarchies can have any depth and schemas any number of fields; that two different sets of names never have the same key is a statement about all pairs", "anchors": ["pseudocode_semantics.py:process_declared_record_type_info, find_record_types_with_fields"]}
{"id": "C100", "title": "The tests of the parser", "statement": "For every parser, every checker of early errors and every test file in one of the four directories: the test succeeds just if what comes of it (a parse error, an early error or no error, with the goal Module just if the name says so) is what is expected by its directory or by a correction, and fails otherwise. For a whole directory, the number of successes that is written is the number of those tests, and the number of failures that of all others, temporary files left out. A file given by its absolute path has its outcome told, but not if it cannot be parsed: then there is an exception.", "quantifier": "all parsers, texts, names and directories", "why_tests_cant": "the verdict must be right for every behaviour of the parser, and the totals for every number of files", "anchors": ["test_parser.py:test_one, test_all_in_dir, expectation_for_dirname"]}
{"id": "C101", "title": "The type of an expression", "statement": "For every expression and every environment that is right about the values of its variables: if no message is given, the value of the expression belongs to the type that is found, what is found out about the variables is right, the value is not that of a parameter that is not passed (but where the parameter is tested for being present or is set), and, unless the type is known from the environment or the expression is a field [[EvaluationError]], its values are all completion records or none of them is. A type known from the environment is taken without any other check. A warning is given just if the type is one of the three that tell nothing, mixes completion records and others, or has the value for not passed.", "quantifier": "all expressions, environments, types and stores", "why_tests_cant": "no finite set of expressions shows that a type that is found without a message fits all values", "anchors": ["pseudocode_semantics.py:tc_expr, type_bracket_for, convert_nature_node_to_type"]}
{"id": "C102", "title": "The table of rules for productions", "statement": "For every program text with rules (classes with decorators for productions) and every sequence of look-ups: the program can be loaded just if no production is in two decorators; a look-up gives the attribute of the class decorated with the production, or nothing if there is none; the program is ended just by a look-up of something that must exist and does not; and at the end the productions reported as unused are, each once, those that have a rule and that no look-up was for (a look-up that finds the class but not the attribute is a use).", "quantifier": "all sets of rules and all histories of look-ups", "why_tests_cant": "which entries are reported depends on the whole history of look-ups", "anchors": ["pseudocode_semantics.py:lookup_for_prod, report_unused_entries, class_for_prod_str_; DecoratedFuncDict.py:DecoratedFuncDict"]}
{"id": "C103", "title": "Numbers made from mathematical values", "statement": "For every integer: if the executed pseudocode makes a Number from it, this is the Number value for it as ECMAScript defines it, i.e. the only member closest to it of the set of all finite Numbers (without -0) and 2^1024 and -2^1024, where these stand for the infinities. A Number is made just from the integers from 0 to 2^53 - 2 and from 2^1024 on; for all others there is an exception, also for the largest safe integer and for negative ones. The remainder of two integers is the one that ECMAScript calls x modulo y, with an exception for zero, and the comparisons say what their signs say.", "quantifier": "all integers", "why_tests_cant": "rounding is a statement about all doubles and all integers, far beyond what can be tried", "anchors": ["pseudocode_semantics.py:the_Number_value_for, EL_Number, ES_Mathnum.compare, ES_Mathnum.__mod__"]}
{"id": "C104", "title": "The tree of types is that of the hierarchy and of the schemas", "statement": "For every hierarchy of named types and every tree of record schemas: in the tree of types that is built, a name has a node just where it stands in the hierarchy, with the name above it as its parent and its depth as its level; a record schema has one just if neither it nor one above it is that of Completion Records, below its super-schema or else below the type of all records. No type has two nodes, and the tree is built just if no name occurs twice.", "quantifier": "all hierarchies and trees of schemas, of any depth and width", "why_tests_cant": "the subtype test climbs in this tree by levels, so a wrong level or parent anywhere in a tree of any depth makes it wrong", "anchors": ["static_types.py:TNode, _traverse, _traverse_record_schema"]}
{"id": "C105", "title": "The nodes of parsed pseudocode", "statement": "For every grammar of pseudocode, every sequence of tokens and every order in which the parser matches and reduces: a terminal is matched just if it fits the token (by its name in braces, as an article, or as a word); a reduction gives a node whose children are the nodes of the pieces in their order without those for spaces, and nothing for productions whose name begins with {_; and if the tokens stand one after the other, then in every node that is made the children stand one after the other within the extent of their parent, down to the tokens. Asking whether a node is of some kind gives the first node of this kind on the way down through only children.", "quantifier": "all grammars, token sequences and orders of parsing steps", "why_tests_cant": "source extents are used for all messages, and nothing but an induction over parses settles them for all texts and grammars", "anchors": ["Pseudocode_Parser.py:matcher_for_gparse, reducer, ANode.is_a"]}
