{
 "claims": [
  {
   "property": "C01",
   "status": "proved",
   "theorems": [
    "Wbnf.C01_consumes_prefix"
   ],
   "note": "For every engine whose match positions lie in the text and every external handler that consumes from the front."
  },
  {
   "property": "C02",
   "status": "proved",
   "theorems": [
    "Wbnf.C02_leaves_in_order",
    "Wbnf.C02_leaves_inside",
    "Wbnf.C02_unset_group"
   ],
   "note": ""
  },
  {
   "property": "C03",
   "status": "proved",
   "theorems": [
    "Wbnf.C03_leaves_are_consumed_text",
    "Wbnf.C03_lossless"
   ],
   "note": ""
  },
  {
   "property": "C04",
   "status": "proved",
   "theorems": [
    "Wbnf.C04_conforms"
   ],
   "note": ""
  },
  {
   "property": "C05",
   "status": "proved",
   "theorems": [
    "Wbnf.C05_accepts_iff",
    "Wbnf.C05_unconsumed",
    "Wbnf.C05_rejects",
    "Wbnf.C05_no_new_panic"
   ],
   "note": ""
  },
  {
   "property": "C06",
   "status": "proved",
   "theorems": [
    "Wbnf.C06_first_match",
    "Wbnf.C06_first_match_any"
   ],
   "note": ""
  },
  {
   "property": "C07",
   "status": "proved",
   "theorems": [
    "Wbnf.C07_greedy_bounded",
    "Wbnf.C07_greedy_bounded_any"
   ],
   "note": ""
  },
  {
   "property": "C08",
   "status": "proved",
   "theorems": [
    "Wbnf.C08_lookahead",
    "Wbnf.C08_scanner_untouched"
   ],
   "note": ""
  },
  {
   "property": "C09",
   "status": "proved",
   "theorems": [
    "Wbnf.C09_list_is_joined"
   ],
   "note": ""
  },
  {
   "property": "C10",
   "status": "proved",
   "theorems": [
    "Wbnf.C10_assoc_only_nests"
   ],
   "note": ""
  },
  {
   "property": "C11",
   "status": "proved",
   "theorems": [
    "Wbnf.C11_sound",
    "Wbnf.C11_complete",
    "Wbnf.C11_deterministic",
    "Wbnf.C11_accepts_iff"
   ],
   "note": "Proved for grammars with cut points too; hypotheses: no bare reference under a name (Grammar.wf), no escape handler, external handlers that ignore cut tokens."
  },
  {
   "property": "C12",
   "status": "proved",
   "theorems": [
    "Wbnf.C12_tokens_irrelevant",
    "Wbnf.C12_collision"
   ],
   "note": "Includes a witness that colliding tokens change the outcome."
  },
  {
   "property": "C13",
   "status": "proved",
   "theorems": [
    "Wbnf.C13_compiles",
    "Wbnf.C13_prunes",
    "Wbnf.C13_fails",
    "Wbnf.C13_parse",
    "Wbnf.C13_adds_nothing",
    "Wbnf.C13_named",
    "Wbnf.C13_converse_false"
   ],
   "note": "For grammars whose cut points are not on names, rules or stacks and whose wrappers have no cut points (true of all that compiling a wbnf text inserts), distinct cut tokens; C13_named shows the condition is needed, C13_converse_false that the converse fails."
  },
  {
   "property": "C14",
   "status": "proved",
   "theorems": [
    "Wbnf.C14_cut_commits",
    "Wbnf.C14_cut_final",
    "Wbnf.C14_before_cut"
   ],
   "note": ""
  },
  {
   "property": "C15",
   "status": "proved",
   "theorems": [
    "Wbnf.C15_terminates"
   ],
   "note": ""
  },
  {
   "property": "C16",
   "status": "proved",
   "theorems": [
    "Wbnf.C16_left_recursion",
    "Wbnf.C16_empty_loop",
    "Wbnf.C16_empty_repetition",
    "Wbnf.C16_forever"
   ],
   "note": ""
  },
  {
   "property": "C17",
   "status": "proved",
   "theorems": [
    "Wbnf.C17_backref",
    "Wbnf.C17_unique",
    "Wbnf.C17_unbound",
    "Wbnf.C17_repeat"
   ],
   "note": ""
  },
  {
   "property": "C18",
   "status": "proved",
   "theorems": [
    "Wbnf.C18_only_referred",
    "Wbnf.C18_no_leak",
    "Wbnf.C18_rule_private"
   ],
   "note": ""
  },
  {
   "property": "C19",
   "status": "proved",
   "theorems": [
    "Wbnf.C19_unused",
    "Wbnf.C19_flatten",
    "Wbnf.C19_rename_compiles",
    "Wbnf.C19_rename",
    "Wbnf.C19_shadows"
   ],
   "note": "Scoping as an equivalence with the flattened grammar (C19_flatten) and independence from definitions not in use (C19_unused). Renaming is a one-to-one renaming of all names; the reserved names stay, layers of stacks follow their stack. Without external references."
  },
  {
   "property": "C20",
   "status": "proved",
   "theorems": [
    "Wbnf.C20_layers",
    "Wbnf.C20_layer",
    "Wbnf.C20_others",
    "Wbnf.C20_no_stack",
    "Wbnf.C20_panics",
    "Wbnf.C20_cut_lost"
   ],
   "note": "Rule names distinct (a Go map) and none equal to a generated layer name r@i. The rewriting also drops cut points inside layers: stated in the specification (Term.uncut), witness C20_cut_lost."
  },
  {
   "property": "C21",
   "status": "proved",
   "theorems": [
    "Wbnf.C21_compiles",
    "Wbnf.C21_behaves",
    "Wbnf.C21_grammar",
    "Wbnf.C21_collision"
   ],
   "note": "For grammars in which no rule has the name of a generated layer r@i (true of all grammars written in wbnf syntax, whose identifiers have no inner @); C21_collision shows the order matters otherwise."
  },
  {
   "property": "C22",
   "status": "partial",
   "theorems": [
    "Wbnf.C22_unchanged_iff_partial",
    "Wbnf.C22_top",
    "Wbnf.C22_changed",
    "Wbnf.C22_again_partial",
    "Wbnf.C22_shown_partial",
    "Wbnf.C22_settles_partial"
   ],
   "note": "False in general: C22_changed is a witness. Proved: exact condition under which the grammar is unchanged; the top-level map keeps its names and its definitions without grammars in braces; and, if no definition of .wrapRE has braces or a stack in it, the changed grammar and the grammar the parsers show compile again to parsers that do the same with every input, and compiling again changes nothing more."
  },
  {
   "property": "C23",
   "status": "proved",
   "theorems": [
    "Wbnf.C23_regexp",
    "Wbnf.C23_literal",
    "Wbnf.C23_exempt",
    "Wbnf.C23_backref",
    "Wbnf.C23_rule"
   ],
   "note": "For wrappers pre()post with optional exemptions, grammars in braces without a wrapper of their own; that the engine reads the spliced regexp as a concatenation is a hypothesis (Concatenates), shown for the example engine."
  },
  {
   "property": "C24",
   "status": "proved",
   "theorems": [
    "Wbnf.C24_compile_iff",
    "Wbnf.C24_no_panic",
    "Wbnf.C24_panics",
    "Wbnf.C24_alias_circle"
   ],
   "note": ""
  },
  {
   "property": "C25",
   "status": "proved",
   "theorems": [
    "Wbnf.C25_failure_scanner"
   ],
   "note": ""
  },
  {
   "property": "C26",
   "status": "partial",
   "theorems": [
    "Wbnf.C26_leaves_partial",
    "Wbnf.C26_roundtrip_partial",
    "Wbnf.C26_associative",
    "Wbnf.C26_not_always"
   ],
   "note": "False in general: C26_not_always has witnesses (lists that associate or have a leading separator, back references, single-leaf rules, named rules). Proved for all other terms: literals, regexps, sequences, choices, repetitions, look-aheads, names, rules, stacks, cut points, plain lists."
  },
  {
   "property": "C27",
   "status": "proved",
   "theorems": [
    "Wbnf.C27_new",
    "Wbnf.C27_eat",
    "Wbnf.C27_eat_eat",
    "Wbnf.C27_slice",
    "Wbnf.C27_slice_slice",
    "Wbnf.C27_eatString",
    "Wbnf.C27_stripSource",
    "Wbnf.C27_out_of_range"
   ],
   "note": ""
  },
  {
   "property": "C28",
   "status": "proved",
   "theorems": [
    "Wbnf.C28_position",
    "Wbnf.C28_position_injective",
    "Wbnf.C28_position_defined"
   ],
   "note": ""
  },
  {
   "property": "C29",
   "status": "proved",
   "theorems": [
    "Wbnf.C29_merge_hull",
    "Wbnf.C29_merge_error",
    "Wbnf.C29_merge_set",
    "Wbnf.C29_merge_perm"
   ],
   "note": ""
  },
  {
   "property": "C30",
   "status": "proved",
   "theorems": [
    "Wbnf.C30_contains_iff",
    "Wbnf.C30_contains_defined",
    "Wbnf.C30_contains_refl",
    "Wbnf.C30_contains_trans",
    "Wbnf.C30_contains_antisymm",
    "Wbnf.C30_contains_merge"
   ],
   "note": ""
  },
  {
   "property": "C31",
   "status": "partial",
   "theorems": [
    "Wbnf.C31_groups_partial",
    "Wbnf.C31_unchanged_partial",
    "Wbnf.C31_leaves_partial",
    "Wbnf.C31_leaf",
    "Wbnf.C31_shown_word",
    "Wbnf.C31_shown_layer",
    "Wbnf.C31_not_always"
   ],
   "note": "False in general: C31_not_always has witnesses (two layers of one stack in a branch, associating lists, named start rules, separators that are lists, grammars in braces that give another definition to a name). Proved for all grammars without these (Grammar.ConvertibleIn), grammars in braces included; what is added to the caller's grammar is stated."
  },
  {
   "property": "C32",
   "status": "partial",
   "theorems": [
    "Wbnf.C32_kinds_partial",
    "Wbnf.C32_same_kind_partial"
   ],
   "note": "Proved for the grammars of C31; for the others FromParserNode panics or changes the grammar (C31_not_always)."
  },
  {
   "property": "C33",
   "status": "partial",
   "theorems": [
    "Wbnf.C33_round_trip_partial",
    "Wbnf.C33_not_always"
   ],
   "note": "Proved for every grammar that converts (C31) and whose rules can be read back (Term.Readable: wherever a term is optional or repeated, its names tell it from later ones), every input and tree of a parse. Left out, with witnesses in C33_not_always: names shared with later parts, lookahead, list flags, rules that are a named term, back references."
  },
  {
   "property": "C34",
   "status": "partial",
   "theorems": [
    "Wbnf.C34_same_content_partial",
    "Wbnf.C34_refl_partial",
    "Wbnf.C34_symm_partial",
    "Wbnf.C34_trans_partial",
    "Wbnf.C34_positions",
    "Wbnf.C34_empty_list",
    "Wbnf.C34_tidy_partial"
   ],
   "note": "Full statement fails for hand-made nodes with an empty list: C34_empty_list is a witness against symmetry. Proved for all nodes without empty lists (Ast.Tidy), which includes all FromParserNode makes (C34_tidy_partial); independence of positions for all nodes."
  },
  {
   "property": "C35",
   "status": "partial",
   "theorems": [
    "Wbnf.C35_hull",
    "Wbnf.C35_panics",
    "Wbnf.C35_unique",
    "Wbnf.C35_parse_partial",
    "Wbnf.C35_not_always"
   ],
   "note": "False in general: C35_not_always (a list with an item without leaves makes Scanner panic). C35_hull/C35_panics say exactly when it is the hull and when it panics, for any AST; C35_parse_partial gives a condition on the grammar."
  },
  {
   "property": "C36",
   "status": "partial",
   "theorems": [
    "Wbnf.C36_reads",
    "Wbnf.C36_spells_partial",
    "Wbnf.C36_round_trip",
    "Wbnf.C36_backquotes",
    "Wbnf.C36_numeric"
   ],
   "note": "False for the numeric escapes: C36_numeric (\\x, \\u, \\U panic whatever follows; an octal escape yields its byte and its third digit again, from \\200 on a panic). C36_reads says exactly what any literal is read as; C36_spells_partial covers all other escapes; C36_round_trip and C36_backquotes hold for every text."
  },
  {
   "property": "C37",
   "status": "partial",
   "theorems": [
    "Wbnf.C37_erase",
    "Wbnf.C37_only_unique_partial",
    "Wbnf.C37_all_unique_partial",
    "Wbnf.C37_never_repeated",
    "Wbnf.C37_conservative",
    "Wbnf.C37_miscounts",
    "Wbnf.C37_changes_language",
    "Wbnf.C37_wrapper"
   ],
   "note": "Proved for all grammars: erasing the inserted cut points gives the grammar back, only literals get them, a literal occurring twice in plain positions never gets one, and they only prune (C37_conservative). That exactly the literals occurring once get one is proved for literals outside look-aheads, list-starting separators, braces that repeat them, and reference defaults; elsewhere the code miscounts (C37_miscounts). C37_changes_language and C37_wrapper show the insertion changing the language, e.g. a trailing separator that occurs once becomes an error."
  },
  {
   "property": "C38",
   "status": "partial",
   "theorems": [
    "Wbnf.C38_substitution_partial",
    "Wbnf.C38_unique",
    "Wbnf.C38_collected",
    "Wbnf.C38_lookahead",
    "Wbnf.C38_braces",
    "Wbnf.C38_capture",
    "Wbnf.C38_recursive",
    "Wbnf.C38_panics",
    "Wbnf.C38_ends"
   ],
   "note": "C38_substitution_partial: for every macro table, body and arguments, a call builds exactly what its body with the parameters textually replaced (simultaneously) builds, provided no parameter occurs in a look-ahead or in braces and no called macro captures its name. Those three exclusions are violations of the code, shown by C38_lookahead, C38_braces, C38_capture; C38_recursive and C38_panics show non-termination and panics. C38_ends: building always ends if no macro called reaches itself through calls."
  },
  {
   "property": "C39",
   "status": "partial",
   "theorems": [
    "Wbnf.C39_real",
    "Wbnf.C39_chain_partial",
    "Wbnf.C39_direct",
    "Wbnf.C39_pair",
    "Wbnf.C39_ring",
    "Wbnf.C39_missed",
    "Wbnf.C39_wrong_chain",
    "Wbnf.C39_false_alarm",
    "Wbnf.C39_unseen"
   ],
   "note": "Proved for every grammar and every map order: a report implies a cycle of rules naming each other first (C39_real); routes of up to six names are real chains (C39_chain_partial); direct and two-rule recursion is always reported (C39_direct, C39_pair), as are rings of any length without side branches (C39_ring). Not true of the code in general: longer cycles can be missed or misreported because appended slices share their arrays (C39_missed, C39_wrong_chain), rule names count as possibly empty (C39_false_alarm), and repetitions are not looked into (C39_unseen)."
  },
  {
   "property": "C40",
   "status": "partial",
   "theorems": [
    "Wbnf.C40_exact",
    "Wbnf.C40_sound_partial",
    "Wbnf.C40_no_dangling",
    "Wbnf.C40_macro_as_rule",
    "Wbnf.C40_unchecked",
    "Wbnf.C40_recursive_macro",
    "Wbnf.C40_at",
    "Wbnf.C40_huge_bound"
   ],
   "note": "C40_exact says exactly when validation reports nothing; C40_no_dangling follows it to the built grammar, for sources without macros and grammars in braces. Partial because validation does not check what is in braces or macro bodies, takes macro names for rules and `@` for a rule everywhere (C40_macro_as_rule, C40_unchecked, C40_at), accepts macros that call themselves (C40_recursive_macro) and panics on bounds over an int (C40_huge_bound)."
  },
  {
   "property": "C41",
   "status": "partial",
   "theorems": [
    "Wbnf.C41_statements",
    "Wbnf.C41_members",
    "Wbnf.C41_once",
    "Wbnf.C41_ends",
    "Wbnf.C41_cycle",
    "Wbnf.C41_all_there",
    "Wbnf.C41_inline",
    "Wbnf.C41_diamond",
    "Wbnf.C41_read_again",
    "Wbnf.C41_braces"
   ],
   "note": "Statements, order, reads and termination are proved for all file systems and resolvers (C41_statements, C41_members, C41_once, C41_ends, C41_all_there, C41_inline). Partial because a file imported in two ways is read once but merged twice (C41_diamond), reading at most once holds only when loading succeeds (C41_read_again), and imports in braces are merged at the top level (C41_braces)."
  },
  {
   "property": "C42",
   "status": "partial",
   "theorems": [
    "Wbnf.C42_literal_partial",
    "Wbnf.C42_behaves",
    "Wbnf.C42_quant",
    "Wbnf.C42_carriage_return",
    "Wbnf.C42_not_text"
   ],
   "note": "Proved for every grammar whose names and literals are text without carriage returns and whose quantifiers are *, + and ?: the literal is Go source, denotes a grammar with the same rules (C42_literal_partial), which compiles and parses the same (C42_behaves). The property fails otherwise: other quantifiers give source that Go rejects (C42_quant), carriage returns are lost (C42_carriage_return), NUL and bytes that are not UTF-8 are not Go source (C42_not_text)."
  },
  {
   "property": "C43",
   "status": "proved",
   "theorems": [
    "Wbnf.C43_blocks",
    "Wbnf.C43_one_line",
    "Wbnf.C43_injective",
    "Wbnf.C43_reads_back",
    "Wbnf.C43_breaks"
   ],
   "note": "Slices of flags are modelled with shared backing arrays and any growth policy. With line breaks in labels two trees may print the same (C43_breaks). SortItems and Rank are not modelled."
  },
  {
   "property": "C44",
   "status": "partial",
   "theorems": [
    "Wbnf.C44_nodes_partial",
    "Wbnf.C44_nodes_both",
    "Wbnf.C44_nodes_panic",
    "Wbnf.C44_report_notes",
    "Wbnf.C44_report",
    "Wbnf.C44_terms_partial",
    "Wbnf.C44_terms_internal",
    "Wbnf.C44_terms_equal",
    "Wbnf.C44_terms_defined",
    "Wbnf.C44_grammars",
    "Wbnf.C44_grammars_same",
    "Wbnf.C44_grammars_defined",
    "Wbnf.C44_nodes_type",
    "Wbnf.C44_ext",
    "Wbnf.C44_default"
   ],
   "note": "Exact characterisations proved; the property as stated fails: the tree differ does not compare the kinds of children (C44_nodes_type), the term differ ignores the names of external references (C44_ext) and panics when one back reference has a default and the other not (C44_default). Proved in full for terms without external references (C44_terms_internal, C44_terms_equal) and for grammars whenever the comparison returns (C44_grammars)."
  },
  {
   "property": "C45",
   "status": "partial",
   "theorems": [
    "Wbnf.C45_walk_partial",
    "Wbnf.C45_all",
    "Wbnf.C45_aborter",
    "Wbnf.C45_aborter_goes_on",
    "Wbnf.C45_leaf"
   ],
   "note": "C45_walk_partial: the calls made are the pre/post-order ones, each once, less what is under left nodes, up to the first stopper that aborts. The exported Aborter also says ExitNode and so does not abort (C45_aborter, for all callbacks); NodeExiter from a leaf callback leaves the parent (C45_leaf)."
  },
  {
   "property": "C46",
   "status": "proved",
   "theorems": [
    "Wbnf.C46_context_unlimited",
    "Wbnf.C46_context_limited"
   ],
   "note": ""
  },
  {
   "property": "C47",
   "status": "proved",
   "theorems": [
    "Wbnf.C47_local",
    "Wbnf.C47_together",
    "Wbnf.C47_unset"
   ],
   "note": "For grammars without external references whose patterns always set the reported group; C47_unset shows that the condition is needed."
  },
  {
   "property": "C48",
   "status": "proved",
   "theorems": [
    "Wbnf.C48_furthest",
    "Wbnf.C48_fatal"
   ],
   "note": ""
  },
  {
   "property": "C49",
   "status": "proved",
   "theorems": [
    "Wbnf.C49_spaces",
    "Wbnf.C49_braces",
    "Wbnf.C49_bare"
   ],
   "note": ""
  },
  {
   "property": "C50",
   "status": "proved",
   "theorems": [
    "Wbnf.C50_order"
   ],
   "note": "For rules with distinct names (a Go map has no others)."
  },
  {
   "property": "C51",
   "status": "proved",
   "theorems": [
    "Wbnf.C51_denotes",
    "Wbnf.C51_total",
    "Wbnf.C51_unique",
    "Wbnf.C51_last",
    "Wbnf.C51_dropped",
    "Wbnf.C51_expressible"
   ],
   "note": "C51_denotes, C51_total and C51_unique: what NewFromAst gives; C51_expressible: every grammar that can be written has a source; C51_last: later productions win. The order of quantifiers is the opposite of what the comment at compile.go:251-252 says (see the first example), and grammars in braces within layers do not count (C51_dropped)."
  },
  {
   "property": "C52",
   "status": "partial",
   "theorems": [
    "Wbnf.C52_stored",
    "Wbnf.C52_none",
    "Wbnf.C52_parts_partial",
    "Wbnf.C52_choice_partial",
    "Wbnf.C52_alternative_partial"
   ],
   "note": "First and All for every branch (C52_stored); on the AST of a parse for grammars that FromParserNode converts (see C31): All gives the parts under the name in order, Choice the first choice made or -1, without panic."
  },
  {
   "property": "C53",
   "status": "proved",
   "theorems": [
    "Wbnf.C53_parses",
    "Wbnf.C53_accepts_iff"
   ],
   "note": "For every engine with Core.EngineOK (shown to hold of the modelled engine): Core.parse, the first half of wbnf.Parse, ends with a tree or an error; and it accepts just what the grammar denotes. The conversion to an Ast (second half) is C31."
  },
  {
   "property": "C54",
   "status": "proved",
   "theorems": [
    "Wbnf.C54_nodes"
   ],
   "note": "For every engine with Core.EngineOK and Core.EngineReads (a match of a leaf's regexp is such a token with white space around it, and the last group is the token)."
  },
  {
   "property": "C55",
   "status": "partial",
   "theorems": [
    "Wbnf.C55_read",
    "Wbnf.C55_needs",
    "Wbnf.C55_compile_partial",
    "Wbnf.C55_parses_partial",
    "Wbnf.C55_ends",
    "Wbnf.C55_aliases",
    "Wbnf.C55_panics",
    "Wbnf.C55_hangs"
   ],
   "note": "C55_needs, C55_compile_partial, C55_parses_partial: what is returned, as an equivalence, also for sources with macros (their calls expanded as C68 says). C55_ends: termination given that following imports, macro calls and aliases ends. That Compile does not panic is false: C55_panics gives five accepted texts on which it does; C55_hangs one on which it never returns. Missing: C55_compile_partial for macros that are not hygienic (parameters in look-aheads or braces, captured names: C38_lookahead, C38_braces, C38_capture)."
  },
  {
   "property": "C56",
   "status": "partial",
   "theorems": [
    "Wbnf.C56_errors",
    "Wbnf.C56_parsers_partial",
    "Wbnf.C56_means",
    "Wbnf.C56_refused"
   ],
   "note": "C56_errors, C56_parsers_partial: for all sources that differ in comments between the statements; C56_means for comments in braces. That comments of any length are accepted is false: C56_refused (the regexp of block comments has room for one character only)."
  },
  {
   "property": "C57",
   "status": "proved",
   "theorems": [
    "Wbnf.C57_spelled",
    "Wbnf.C57_words",
    "Wbnf.C57_braces",
    "Wbnf.C57_arguments"
   ],
   "note": "For every engine with Core.EngineOK and Core.EngineReads. C57_spelled: the text is the words the node is spelled with. C57_words: same node, same words, for nodes without pragmas, macro calls and braces among layers; C57_braces and C57_arguments show texts with different words and the same node otherwise."
  },
  {
   "property": "C58",
   "status": "partial",
   "theorems": [
    "Wbnf.C58_legible_partial",
    "Wbnf.C58_separators",
    "Wbnf.C58_named_rules",
    "Wbnf.C58_two_kinds",
    "Wbnf.C58_named_groups",
    "Wbnf.C58_panics_reference",
    "Wbnf.C58_panics_token"
   ],
   "note": "C58_legible_partial: for grammars of the form Grammar.Typed (no braces, separators that are literals or named, no name used in two ways in a type, names for rules only where the rule is a token or has itself as a child, no @ in named groups), with the hypotheses of C31 and C02. False in general: C58_separators, C58_named_rules, C58_two_kinds, C58_named_groups give texts whose ASTs can not be read; C58_panics_reference and C58_panics_token give accessors that panic."
  },
  {
   "property": "C59",
   "status": "partial",
   "theorems": [
    "Wbnf.C59_accessors_partial",
    "Wbnf.C59_lists_partial",
    "Wbnf.C59_alternatives",
    "Wbnf.C59_named_twice",
    "Wbnf.C59_separators",
    "Wbnf.C59_tokens"
   ],
   "note": "C59_accessors_partial and C59_lists_partial: for grammars as in C58 (Grammar.Typed), and for names for which Term.clear holds (it excludes the shapes of the negations). False in general: C59_alternatives (one child beside an alternative with another), C59_named_twice (a name given twice), C59_separators (a named literal as a separator), C59_tokens (two unnamed tokens)."
  },
  {
   "property": "C60",
   "status": "partial",
   "theorems": [
    "Wbnf.C60_total_partial",
    "Wbnf.C60_types_once",
    "Wbnf.C60_rules",
    "Wbnf.C60_declared_partial",
    "Wbnf.C60_methods_partial",
    "Wbnf.C60_receivers_partial",
    "Wbnf.C60_references",
    "Wbnf.C60_token",
    "Wbnf.C60_self",
    "Wbnf.C60_self_in_group",
    "Wbnf.C60_alike",
    "Wbnf.C60_inner",
    "Wbnf.C60_empty_group",
    "Wbnf.C60_suffix",
    "Wbnf.C60_empty_rule"
   ],
   "note": "C60_types_once and C60_rules hold for every grammar. C60_total_partial: references are to rules in sight and no rule is empty. C60_declared_partial: names are given to @, to top-level rules whose type is made of their name, and to what is not empty. C60_methods_partial and C60_receivers_partial: Untangled, a decidable condition on the uses of names in the grammar. False in general: C60_references, C60_token, C60_self, C60_self_in_group, C60_alike give an accessor twice; C60_inner, C60_empty_group, C60_suffix return a type that is not declared; C60_empty_rule panics."
  },
  {
   "property": "C61",
   "status": "partial",
   "theorems": [
    "Wbnf.C61_compiles_partial",
    "Wbnf.C61_walk_partial",
    "Wbnf.C61_nodes_partial",
    "Wbnf.C61_all_partial",
    "Wbnf.C61_aborter",
    "Wbnf.C61_alternatives",
    "Wbnf.C61_separators",
    "Wbnf.C61_inner",
    "Wbnf.C61_leaf"
   ],
   "note": "C61_compiles_partial and C61_walk_partial: grammars as in C60 (Untangled, Makes); callbacks do not return one stopper both to stop and to leave, nor one to leave a token. C61_nodes_partial and C61_all_partial: for ASTs of texts, also as in C58 (Typed) and Clear (where many nodes of a name are possible, the count of C59 sees it). C61_aborter holds for every grammar: Aborter only leaves the node. False in general: C61_alternatives and C61_separators (children not visited), C61_inner (a walker that does not compile), C61_leaf."
  },
  {
   "property": "C62",
   "status": "proved",
   "theorems": [
    "Wbnf.C62_order",
    "Wbnf.C62_refused",
    "Wbnf.C62_handlers",
    "Wbnf.C62_unused",
    "Wbnf.C62_escape",
    "Wbnf.C62_escape_rule",
    "Wbnf.C62_leaves",
    "Wbnf.C62_nested",
    "Wbnf.C62_list_panics",
    "Wbnf.C62_look_consumes",
    "Wbnf.C62_missing",
    "Wbnf.C62_alternatives_panic"
   ],
   "note": "The map of handlers is a list with distinct keys. Handlers are functions of the scope and the scanner. C62_list_panics, C62_look_consumes, C62_missing and C62_alternatives_panic show what an escape or a missing handler does that a user may not expect: an escape after an item of a list panics, a look-ahead takes an escape from the text, a missing handler stops a choice, a delimiter with alternatives is only anchored in the first."
  },
  {
   "property": "C63",
   "status": "partial",
   "theorems": [
    "Wbnf.C63_iff",
    "Wbnf.C63_order",
    "Wbnf.C63_prints",
    "Wbnf.C63_parse_partial",
    "Wbnf.C63_not_always",
    "Wbnf.C63_tree_ambiguous",
    "Wbnf.C63_quote",
    "Wbnf.C63_go"
   ],
   "note": "C63_iff, C63_order and C63_prints are for all ASTs with identifiers as names; %q (strconv.Quote) is a parameter that must be readable back, have no newline and begin with a quote (Ex.byteQuote is one; C63_quote: so is the model of strconv.Quote as of Go 1.19, written from memory of the standard library, for every set of printable characters that is right on ASCII; C63_go is the claim with it). The sources of leaves and the Go types of data are not in the text. C63_parse_partial: ASTs of parses are such ASTs, under the hypotheses of C31_groups_partial. C63_not_always: names and data made by hand can be confused. C63_tree_ambiguous: the texts of parse trees (parser.Node) can be too."
  },
  {
   "property": "C64",
   "status": "partial",
   "theorems": [
    "Wbnf.C64_ends",
    "Wbnf.C64_ordered",
    "Wbnf.C64_leaf_place",
    "Wbnf.C64_one_place",
    "Wbnf.C64_same",
    "Wbnf.C64_line",
    "Wbnf.C64_line_runs",
    "Wbnf.C64_parse_partial",
    "Wbnf.C64_not_always",
    "Wbnf.C64_panics",
    "Wbnf.C64_reads_partial"
   ],
   "note": "C64_ends, C64_ordered, C64_same and C64_line are for all ASTs (with names that do not begin with 1-9 and offsets in the range of int). sort.Slice is any function that sorts by rank; Ex.sortRank is one. C64_reads_partial (leaves from left to right) is for parses under the hypotheses of C35_parse_partial, without lookaheads, with leaves that are not empty. C64_not_always: with an empty node, and a leaf at offset 0 (whose number is not read), the view of a parse depends on the order of the map. C64_panics: a name that begins with a number out of range."
  },
  {
   "property": "C65",
   "status": "partial",
   "theorems": [
    "Wbnf.C65_clean_iff",
    "Wbnf.C65_clean",
    "Wbnf.C65_words",
    "Wbnf.C65_import_partial",
    "Wbnf.C65_import_slash",
    "Wbnf.C65_import_stdin",
    "Wbnf.C65_no_resolver",
    "Wbnf.C65_nested",
    "Wbnf.C65_nested_fails",
    "Wbnf.C65_once",
    "Wbnf.C65_not_nested",
    "Wbnf.C65_nested_up",
    "Wbnf.C65_twice"
   ],
   "note": "Holds for what the grammar itself imports (C65_import_partial, C65_import_slash, C65_import_stdin). The code violates it for what imported files import (C65_not_nested): the path of the imported file, with its name and the directory of the grammar a second time, is taken for a directory (C65_nested), so for a grammar in the current directory such an import by name always fails (C65_nested_fails); with `..` before it it is found (C65_nested_up). C65_once needs an absolute path; with a relative one a file may be read twice (C65_twice). The functions of path/filepath are modelled as documented, for Unix, and are not part of the repository."
  },
  {
   "property": "C66",
   "status": "partial",
   "theorems": [
    "Wbnf.C66_accepts",
    "Wbnf.C66_leftover",
    "Wbnf.C66_no_ast",
    "Wbnf.C66_rejects",
    "Wbnf.C66_sound",
    "Wbnf.C66_status",
    "Wbnf.C66_no_rule",
    "Wbnf.C66_prints_partial",
    "Wbnf.C66_language_partial",
    "Wbnf.C66_grammar",
    "Wbnf.C66_invalid",
    "Wbnf.C66_unreadable"
   ],
   "note": "C66_accepts, C66_leftover, C66_rejects, C66_sound, C66_no_rule, C66_grammar, C66_invalid and C66_unreadable cover all cases. What is missing for the whole claim: that ASTs can be made of all trees, which is false of the code (C31, C66_no_ast); C66_prints_partial and C66_language_partial are for the grammars of C31_groups_partial. Macros as in C55. What is printed for errors, the verbose flag and the parsing of flags are not modelled."
  },
  {
   "property": "C67",
   "status": "partial",
   "theorems": [
    "Wbnf.C67_writes_partial",
    "Wbnf.C67_node",
    "Wbnf.C67_error",
    "Wbnf.C67_string",
    "Wbnf.C67_library",
    "Wbnf.C67_no_rule",
    "Wbnf.C67_language_partial",
    "Wbnf.C67_unreadable",
    "Wbnf.C67_invalid"
   ],
   "note": "C67_node, C67_error, C67_string, C67_library, C67_no_rule, C67_unreadable and C67_invalid cover all cases for grammars that can be written as Go source; others give packages that Go rejects or that parse something else (C42_quant, C42_carriage_return, C42_not_text). That ASTs can be made of all trees is false of the code (C31); C67_language_partial is for the grammars of C31_groups_partial. Macros as in C55. That Go compiles the rest of the package (types and walkers, see C58-C61) and the layout by go/format are not modelled."
  },
  {
   "property": "C68",
   "status": "partial",
   "theorems": [
    "Wbnf.C68_grammar_partial",
    "Wbnf.C68_exists",
    "Wbnf.C68_unique",
    "Wbnf.C68_plain"
   ],
   "note": "C68_grammar_partial: for every source made of tokens, an equivalence between what NewFromAst returns and what the expanded source denotes. Missing, because false of the code: macros with parameters in look-aheads or in braces, and those whose names are captured by parameters of another (C38_lookahead, C38_braces, C38_capture). C68_exists: circular calls and calls of macros that are not there are excluded; for these see C38_recursive and C38_panics. C68_unique, C68_plain: the expansion is determined, and a source without calls is its own."
  },
  {
   "property": "C69",
   "status": "partial",
   "theorems": [
    "Wbnf.C69_written_partial",
    "Wbnf.C69_layout_partial",
    "Wbnf.C69_unambiguous",
    "Wbnf.C69_compiles_partial",
    "Wbnf.C69_parses_partial",
    "Wbnf.C69_plain_partial",
    "Wbnf.C69_comma",
    "Wbnf.C69_dots"
   ],
   "note": "The converse of C57. C69_written_partial: for every engine with EngineOK, EngineReads and EngineFinds (proved of the model of regexp: Regex.engineFinds). Comments, imports, macros, calls of them and productions with several terms on the right-hand side (a -> b { \u2026 } c;) are covered. Missing: comments /*\u2026*/ with a character beyond ASCII (with more than one character they are refused: C56_refused), names in paths that begin or end with a dot or colon (one that begins with a dot is misread: C69_dots), terms of several layers before another term, regexps with brackets in brackets, regexps outside braces that begin with a dot or have \\p or counts. Words may touch wherever that does not make other tokens (MayFollow). C69_layout_partial: layout makes no difference. C69_unambiguous: the words determine the source, for any engine. C69_compiles_partial, C69_parses_partial (C69_plain_partial without macros): with C55, when Compile of such a text returns parsers, and that they parse as the grammar the text denotes. C69_comma: where a comma or a term may belong to either of two parts the words spell two sources, and the longer part is read; these are excluded above."
  },
  {
   "property": "C70",
   "status": "partial",
   "theorems": [
    "Wbnf.C70_quote",
    "Wbnf.C70_text",
    "Wbnf.C70_literals",
    "Wbnf.C70_go_partial",
    "Wbnf.C70_reads_partial",
    "Wbnf.C70_parses_partial",
    "Wbnf.C70_injective_partial",
    "Wbnf.C70_order",
    "Wbnf.C70_panics",
    "Wbnf.C70_refused",
    "Wbnf.C70_misread"
   ],
   "note": "False in general: C70_refused (the text of a grammar of one rule, of regexps, cut points and references without default is refused by Parse), C70_misread (nested quantifiers come back in the other order, parts that need parentheses are printed without, external references come back as rules). C70_reads_partial, C70_parses_partial, C70_injective_partial: for the grammars of PrintsGrammar (two rules at least, literals of text that %q writes plainly, one quantifier per item, no part that would need parentheses other than a sequence), for every kind of text and every %q that writes such text as strconv.Quote writes ASCII. C70_order: the text does not depend on map order. C70_panics: exactly when String panics (a quantifier from 1 to 1, in a sequence, choice, stack or cut point). C70_quote, C70_text: the model of strconv.Quote is such a %q, for ASCII and for all text of printable characters; C70_go_partial is the claim with it. C70_literals: literals of other text (unprintable characters, invalid UTF-8) are written with numeric escapes, at which Compile panics, without exception."
  },
  {
   "property": "C71",
   "status": "proved",
   "theorems": [
    "Wbnf.C71_starts",
    "Wbnf.C71_same",
    "Wbnf.C71_grammar"
   ],
   "note": "For every engine with EngineOK, EngineReads and EngineFinds (proved of the model of regexp), every order of maps, if regexp.Compile accepts the eight regexps of the text as they stand there (coreRegexps; validation.go compiles the literal with its slash and braces). C71_starts: initialization ends with parsers. C71_same, C71_grammar: they behave as those of the literal, and their grammar is the same up to order. The embedded text is modelled byte for byte (coreLines, with the reversed primes). The model of Grammar() after Compile (Parsers.shown) includes that compiling adds .wrapRE to grammars in braces in place: without that the comparison at initialization would fail."
  },
  {
   "property": "C72",
   "status": "proved",
   "theorems": [
    "Wbnf.C72_get",
    "Wbnf.C72_panics",
    "Wbnf.C72_kinds",
    "Wbnf.C72_steps",
    "Wbnf.C72_count",
    "Wbnf.C72_leaves",
    "Wbnf.C72_in_order",
    "Wbnf.C72_apart",
    "Wbnf.C72_shows",
    "Wbnf.C72_normalize"
   ],
   "note": "C72_in_order has the hypotheses of C02_leaves_in_order (no look-ahead or external reference, patterns that report their group), without which the leaves are in no order; all else is for every tree."
  },
  {
   "property": "C73",
   "status": "partial",
   "theorems": [
    "Wbnf.C73_unplaced",
    "Wbnf.C73_reported",
    "Wbnf.C73_one",
    "Wbnf.C73_ends",
    "Wbnf.C73_same",
    "Wbnf.C73_shows",
    "Wbnf.C73_causes",
    "Wbnf.C73_leaf",
    "Wbnf.C73_notes",
    "Wbnf.C73_sequence",
    "Wbnf.C73_choice",
    "Wbnf.C73_ends_partial",
    "Wbnf.C73_quantifier",
    "Wbnf.C73_endless",
    "Wbnf.C73_elsewhere",
    "Wbnf.C73_place",
    "Wbnf.C73_look"
   ],
   "note": "The errors of every Parse method with their causes are modelled (Model/Report); the text is that of parser/error.go over the model of package gotree. Proved: there is an error to tell exactly if the parse fails with one (C73_reported), the error does not depend on the bound of steps (C73_one), Error returns exactly if no error in it is a cause of itself (C73_ends), always the same (C73_same), and shows every line of what any error or note in it says (C73_shows). What is in the errors is tied to the parse: a text or pattern not found notes what was expected, and what is there provided the scanner is left as it is (C73_leaf; C73_notes: notes are told), the error of a failed item led to that of the sequence (C73_sequence), those of all alternatives to that of the choice (C73_choice), and what an error tells is told by all it led to (C73_causes). Which errors are causes of themselves: none, if no quantifier asks for one at least (C73_ends_partial). The claim is false as a whole: the cause that quantParser.Parse (parser/parser.go:585-588) gives is a closure over its named result, which by then is the error itself, so Error recurses until the stack is exhausted whenever a failed quantifier is among what led to the error (C73_quantifier, for every quantifier and text); C73_endless has a->\"x\"+ and the grammar of grammars on an empty source. False as well of the place: the note of what is there looks at the scanner when the text is asked for, after enclosing sequences have put it back, so \"x\" (\"y\" \"z\") on xyw says yw where \"x\" \"y\" \"z\" says w (C73_elsewhere); it is right for literals that are alternatives (C73_place). C73_unplaced: what is noted to be there is always said to be in line 1, column 1 of a file without name. Otherwise the words of the notes (expected, actual, call stack) are a parameter."
  },
  {
   "property": "C74",
   "status": "proved",
   "theorems": [
    "Wbnf.C74_text"
   ],
   "note": "For the scanner NewScannerWithFilename makes, every sane engine and sane handlers; the whole text of the error is given."
  },
  {
   "property": "C75",
   "status": "partial",
   "theorems": [
    "Wbnf.C75_slices",
    "Wbnf.C75_stops",
    "Wbnf.C75_all",
    "Wbnf.C75_panics",
    "Wbnf.C75_count_partial",
    "Wbnf.C75_count_most",
    "Wbnf.C75_roundtrip_partial",
    "Wbnf.C75_count_false"
   ],
   "note": "All but the number returned with an error, which is false of the code: C75_count_false shows a writer given one byte where Unparse returns 0 with the error (the helper unparse drops the count of a child that fails); it is never too large (C75_count_most). The number returned without an error is proved in C75_count_partial and C75_all."
  },
  {
   "property": "C76",
   "status": "proved",
   "theorems": [
    "Wbnf.C76_duplicates",
    "Wbnf.C76_named",
    "Wbnf.C76_panics",
    "Wbnf.C76_kinds",
    "Wbnf.C76_order",
    "Wbnf.C76_compile"
   ],
   "note": "Kinds of errors, not their texts. Where validation looks is GrammarN.Checked, as in C40 (not in terms with grammars in braces, nor in bodies of macros); what the check for recursion finds is in C39."
  },
  {
   "property": "C77",
   "status": "proved",
   "theorems": [
    "Wbnf.C77_iff",
    "Wbnf.C77_prefix",
    "Wbnf.C77_rune",
    "Wbnf.C77_go",
    "Wbnf.C77_needs",
    "Wbnf.C77_parse_partial"
   ],
   "note": "For trees with the tags described (C77_go); C77_needs shows they are needed. C77_parse_partial carries it over to the trees of parses, for grammars without nested grammars and external references. strconv.Quote and QuoteRune are modelled from the standard library's source (QuoteRune below 128), with IsPrint a parameter."
  }
 ]
}