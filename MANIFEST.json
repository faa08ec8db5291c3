{
 "claims": [
  {
   "property": "C01",
   "status": "proved",
   "theorems": [
    "Lrp.Props.C01_returns_iff",
    "Lrp.Props.C01_panics_iff",
    "Lrp.Props.C01_diverges_iff"
   ],
   "note": "returns / panics / diverges characterised by the orbit of the seed"
  },
  {
   "property": "C02",
   "status": "proved",
   "theorems": [
    "Lrp.Props.C02_numbering",
    "Lrp.Props.C02_distinct",
    "Lrp.Props.C02_single"
   ],
   "note": ""
  },
  {
   "property": "C03",
   "status": "proved",
   "theorems": [
    "Lrp.Props.C03_classification",
    "Lrp.Props.C03_panics"
   ],
   "note": "for every rule map (any sorted association list), both builds"
  },
  {
   "property": "C04",
   "status": "proved",
   "theorems": [
    "Lrp.Props.C04_lookup",
    "Lrp.Props.C04_declared",
    "Lrp.Props.C04_ext",
    "Lrp.Props.C04_perm",
    "Lrp.Props.C04_every"
   ],
   "note": ""
  },
  {
   "property": "C05",
   "status": "proved",
   "theorems": [
    "Lrp.Props.C05_first_exact",
    "Lrp.Props.C05_first_sound"
   ],
   "note": "any grammar for which Tabler::new returns, both builds"
  },
  {
   "property": "C06",
   "status": "partial",
   "theorems": [
    "Lrp.Props.C06_terminates_partial",
    "Lrp.Props.C06_no_long_cycle_partial",
    "Lrp.Props.C06_false_first",
    "Lrp.Props.C06_false_follow",
    "Lrp.Props.C06_refuted"
   ],
   "note": "The statement is false of the code: C06_refuted, with two diverging grammars. Proved for grammars whose graphs of leftmost and of last nonterminals fold away, among them all those with no three nonterminals on a common cycle. C79 says exactly for which grammars it returns."
  },
  {
   "property": "C07",
   "status": "partial",
   "theorems": [
    "Lrp.Props.C07_exact",
    "Lrp.Props.C07_follow_complete",
    "Lrp.Props.C07_follow_sound_partial",
    "Lrp.Props.C07_false_release"
   ],
   "note": "Completeness proved in full. The converse is proved for debug builds and whenever FIRST holds only terminals; it is false in release builds otherwise (C07_false_release). C07_exact says what FOLLOW is in all builds. eof must not itself be a declared rule."
  },
  {
   "property": "C08",
   "status": "partial",
   "theorems": [
    "Lrp.Props.C08_only_terminals_iff",
    "Lrp.Props.C08_only_terminals_partial",
    "Lrp.Props.C08_false_release",
    "Lrp.Props.C08_refuted"
   ],
   "note": "False in release builds (C08_refuted). Proved for debug builds, and for release builds exactly when the two graphs of C06 fold away (C08_only_terminals_iff)."
  },
  {
   "property": "C09",
   "status": "proved",
   "theorems": [
    "Lrp.Props.C09_empty_rejected",
    "Lrp.Props.C09_empty_always",
    "Lrp.Props.C09_no_other_panic"
   ],
   "note": ""
  },
  {
   "property": "C10",
   "status": "proved",
   "theorems": [
    "Lrp.Props.C10_closure"
   ],
   "note": "seed is any strictly increasing list of positions with strictly increasing lookaheads (what a BTreeSet is)"
  },
  {
   "property": "C11",
   "status": "proved",
   "theorems": [
    "Lrp.Props.C11_closure"
   ],
   "note": "closure rule stated over the FIRST table; C05 gives its content"
  },
  {
   "property": "C12",
   "status": "proved",
   "theorems": [
    "Lrp.Props.C12_slr_total",
    "Lrp.Props.C12_slr_new"
   ],
   "note": "the hypothesis about FOLLOW of the property turned out to be unnecessary"
  },
  {
   "property": "C13",
   "status": "proved",
   "theorems": [
    "Lrp.Props.C13_clr_total",
    "Lrp.Props.C13_clr_new"
   ],
   "note": ""
  },
  {
   "property": "C14",
   "status": "proved",
   "theorems": [
    "Lrp.Props.C14_lalr_total",
    "Lrp.Props.C14_lalr_new"
   ],
   "note": ""
  },
  {
   "property": "C15",
   "status": "proved",
   "theorems": [
    "Lrp.Props.C15_slr",
    "Lrp.Props.C15_clr",
    "Lrp.Props.C15_lalr"
   ],
   "note": ""
  },
  {
   "property": "C16",
   "status": "proved",
   "theorems": [
    "Lrp.Props.C16_slr_cells",
    "Lrp.Props.C16_slr_conflicts",
    "Lrp.Props.C16_clr_cells",
    "Lrp.Props.C16_clr_conflicts",
    "Lrp.Props.C16_lalr_cells",
    "Lrp.Props.C16_lalr_conflicts"
   ],
   "note": ""
  },
  {
   "property": "C17",
   "status": "proved",
   "theorems": [
    "Lrp.Props.C17_slr",
    "Lrp.Props.C17_clr",
    "Lrp.Props.C17_lalr"
   ],
   "note": ""
  },
  {
   "property": "C18",
   "status": "proved",
   "theorems": [
    "Lrp.Props.C18_slr_sound",
    "Lrp.Props.C18_needs_start"
   ],
   "note": "for any input tokens; C18_needs_start shows that the proviso on the start symbol is needed"
  },
  {
   "property": "C19",
   "status": "proved",
   "theorems": [
    "Lrp.Props.C19_clr_sound"
   ],
   "note": ""
  },
  {
   "property": "C20",
   "status": "proved",
   "theorems": [
    "Lrp.Props.C20_lalr_sound"
   ],
   "note": ""
  },
  {
   "property": "C21",
   "status": "proved",
   "theorems": [
    "Lrp.Props.C21_slr_complete"
   ],
   "note": "stated as an equivalence together with C18"
  },
  {
   "property": "C22",
   "status": "proved",
   "theorems": [
    "Lrp.Props.C22_clr_complete"
   ],
   "note": "stated as an equivalence together with C19"
  },
  {
   "property": "C23",
   "status": "partial",
   "theorems": [
    "Lrp.Props.C23_false",
    "Lrp.Props.C23_partial",
    "Lrp.Props.C23_iff"
   ],
   "note": "The statement is false of the code: C23_false. Proved under the extra condition that lookaheads have been passed on along all shifts and gotos of the table (decidable for a given table). C23_iff says exactly when a table without conflicts accepts all sentences of an unambiguous grammar."
  },
  {
   "property": "C24",
   "status": "proved",
   "theorems": [
    "Lrp.Props.C24_value",
    "Lrp.Props.C24_value_single"
   ],
   "note": "all three methods, with or without conflicts"
  },
  {
   "property": "C25",
   "status": "proved",
   "theorems": [
    "Lrp.Props.C25_false_lalr",
    "Lrp.Props.C25_unambiguous",
    "Lrp.Props.C25_follows",
    "Lrp.Props.C25_panics"
   ],
   "note": "also for Lalr when lookaheads are propagated; C25_false_lalr shows that this cannot be left out"
  },
  {
   "property": "C26",
   "status": "proved",
   "theorems": [
    "Lrp.Props.C26_no_panic",
    "Lrp.Props.C26_panics",
    "Lrp.Props.C26_validate"
   ],
   "note": ""
  },
  {
   "property": "C27",
   "status": "proved",
   "theorems": [
    "Lrp.Props.C27_clr_returns",
    "Lrp.Props.C27_conflict_free_returns",
    "Lrp.Props.C27_validate_answers",
    "Lrp.Props.C27_slr_needs_conflict_free",
    "Lrp.Props.C27_lalr_needs_conflict_free"
   ],
   "note": "with counterexamples showing that Slr and Lalr tables with conflicts can make parse diverge"
  },
  {
   "property": "C28",
   "status": "partial",
   "theorems": [
    "Lrp.Props.C28_partial",
    "Lrp.Props.C28_false",
    "Lrp.Props.C28_hangs_iff",
    "Lrp.Props.C28_returns_partial"
   ],
   "note": "\"never accepted\" is proved (C28_partial); \"returns\" is false of the code for all three methods: C28_false. C28_returns_partial proves the claim for grammars in which no nonterminal may be repeated without end on the stack, and C28_hangs_iff says exactly when the parser does not return."
  },
  {
   "property": "C29",
   "status": "proved",
   "theorems": [
    "Lrp.Props.C29_consumes_all",
    "Lrp.Props.C29_eof_token",
    "Lrp.Props.C29_unexpected_eof",
    "Lrp.Props.C29_prefix"
   ],
   "note": ""
  },
  {
   "property": "C30",
   "status": "proved",
   "theorems": [
    "Lrp.Props.C30_viable",
    "Lrp.Props.C30_first_wrong"
   ],
   "note": "the second part also for Slr"
  },
  {
   "property": "C31",
   "status": "partial",
   "theorems": [
    "Lrp.Props.C31_clr_terminals_partial",
    "Lrp.Props.C31_not_offending",
    "Lrp.Props.C31_false_only_tokens",
    "Lrp.Props.C31_false_slr",
    "Lrp.Props.C31_false_lalr",
    "Lrp.Props.C31_some_partial"
   ],
   "note": "For Clr the terminals of the list are exactly those that may follow. \"Only tokens\" is false for all methods (C31_false_only_tokens) and \"every terminal that may come next\" is false for Slr (C31_false_slr) and for Lalr (C31_false_lalr); C31_some_partial: the list of any table contains at least one terminal that may come next."
  },
  {
   "property": "C32",
   "status": "partial",
   "theorems": [
    "Lrp.Props.C32_partial",
    "Lrp.Props.C32_false",
    "Lrp.Props.C32_terminal_partial",
    "Lrp.Props.C32_iff_partial"
   ],
   "note": "The statement is false of the code: if the body of the start rule begins with a nonterminal, Dfa::parse never succeeds (C32_false). C32_terminal_partial: if it begins with a terminal, the full statement holds for inputs of terminal tokens; so this decides it (C32_iff_partial). C32_partial holds for all grammars and inputs: it panics for lack of states or agrees with Parser::parse."
  },
  {
   "property": "C33",
   "status": "proved",
   "theorems": [
    "Lrp.Props.C33_merged"
   ],
   "note": ""
  },
  {
   "property": "C34",
   "status": "proved",
   "theorems": [
    "Lrp.Props.C34_same_run",
    "Lrp.Props.C34_same_outcome",
    "Lrp.Props.C34_same_language",
    "Lrp.Props.C34_conflicts"
   ],
   "note": "for arbitrary tables whose targets are rows of the table, and hence for all built tables"
  },
  {
   "property": "C35",
   "status": "proved",
   "theorems": [
    "Lrp.Props.C35_closed_tables",
    "Lrp.Props.C35_built_tables",
    "Lrp.Props.C35_not_idempotent"
   ],
   "note": "with a counterexample to idempotence"
  },
  {
   "property": "C36",
   "status": "proved",
   "theorems": [
    "Lrp.Props.C36_slr_weakest",
    "Lrp.Props.C36_productive",
    "Lrp.Props.C36_strict",
    "Lrp.Props.C36_needs_first"
   ],
   "note": "with the strictness of the hierarchy and a counterexample showing that the proviso is needed in release builds"
  },
  {
   "property": "C37",
   "status": "proved",
   "theorems": [
    "Lrp.Props.C37_span",
    "Lrp.Props.C37_span_panics",
    "Lrp.Props.C37_conversions",
    "Lrp.Props.C37_str",
    "Lrp.Props.C37_str_panics"
   ],
   "note": ""
  },
  {
   "property": "C38",
   "status": "proved",
   "theorems": [
    "Lrp.Props.C38_in_order",
    "Lrp.Props.C38_parse_trees"
   ],
   "note": "first part for arbitrary tables and inputs"
  },
  {
   "property": "C39",
   "status": "proved",
   "theorems": [
    "Lrp.Props.C39_readers",
    "Lrp.Props.C39_finished",
    "Lrp.Props.C39_clone_next",
    "Lrp.Props.C39_body_eq",
    "Lrp.Props.C39_run"
   ],
   "note": ""
  },
  {
   "property": "C40",
   "status": "proved",
   "theorems": [
    "Lrp.Props.C40_sym_filter",
    "Lrp.Props.C40_sorted"
   ],
   "note": ""
  },
  {
   "property": "C41",
   "status": "proved",
   "theorems": [
    "Lrp.Props.C41_expansions"
   ],
   "note": ""
  },
  {
   "property": "C42",
   "status": "proved",
   "theorems": [
    "Lrp.Props.C42_alias"
   ],
   "note": ""
  },
  {
   "property": "C43",
   "status": "partial",
   "theorems": [
    "Lrp.Props.C43_partial",
    "Lrp.Props.C43_actual",
    "Lrp.Props.C43_boundary",
    "Lrp.Props.C43_unbalanced",
    "Lrp.Props.C43_false"
   ],
   "note": "False for aliases of optional items below groups (C43_false, and C43_boundary for every name not covered); C43_partial proves it for the names that every taken alternative containing them takes, C43_actual says exactly when an alias is None. A name used twice that is missing in one alternative of the group breaks the claim too (C43_unbalanced)."
  },
  {
   "property": "C44",
   "status": "partial",
   "theorems": [
    "Lrp.Props.C44_actual",
    "Lrp.Props.C44_boundary",
    "Lrp.Props.C44_partial",
    "Lrp.Props.C44_false"
   ],
   "note": "False when an alternative of the group has optional items or groups (C44_false); C44_boundary: the range is right exactly if the alternative has as many symbols as items written, which C44_partial assumes; C44_actual gives the range in all cases."
  },
  {
   "property": "C45",
   "status": "proved",
   "theorems": [
    "Lrp.Props.C45_names",
    "Lrp.Props.C45_option"
   ],
   "note": "C45_option assumes that no alias name is used twice, except in all alternatives of a group."
  },
  {
   "property": "C46",
   "status": "proved",
   "theorems": [
    "Lrp.Props.C46_reductors"
   ],
   "note": ""
  },
  {
   "property": "C47",
   "status": "proved",
   "theorems": [
    "Lrp.Props.C47_rejects",
    "Lrp.Props.C47_records"
   ],
   "note": ""
  },
  {
   "property": "C48",
   "status": "proved",
   "theorems": [
    "Lrp.Props.C48_scope"
   ],
   "note": ""
  },
  {
   "property": "C49",
   "status": "proved",
   "theorems": [
    "Lrp.Props.C49_table",
    "Lrp.Props.C49_exact",
    "Lrp.Props.C49_unambiguous",
    "Lrp.Props.C49_answers",
    "Lrp.Props.C49_syntax"
   ],
   "note": "with the concrete syntax (C49_syntax) the grammar stands for"
  },
  {
   "property": "C50",
   "status": "proved",
   "theorems": [
    "Lrp.Props.C50_evaluates",
    "Lrp.Props.C50_spans",
    "Lrp.Props.C50_program",
    "Lrp.Props.C50_error"
   ],
   "note": "C50_program also gives the declarations the tree stands for"
  },
  {
   "property": "C51",
   "status": "proved",
   "theorems": [
    "Lrp.Props.C51_sentence"
   ],
   "note": ""
  },
  {
   "property": "C52",
   "status": "partial",
   "theorems": [
    "Lrp.Props.C52_partial",
    "Lrp.Props.C52_false",
    "Lrp.Props.C52_iff"
   ],
   "note": "False of the code in general, because Lalr loses lookaheads: C52_false. Proved when lookaheads have been passed on along all shifts and gotos. C52_iff says exactly when the Lalr and the Clr table agree."
  },
  {
   "property": "C53",
   "status": "proved",
   "theorems": [
    "Lrp.Props.C53_keys",
    "Lrp.Props.C53_printed",
    "Lrp.Props.C53_needs_context"
   ],
   "note": "with a grammar showing that the printed table is wrong without the hypothesis"
  },
  {
   "property": "C54",
   "status": "proved",
   "theorems": [
    "Lrp.Props.C54_slr_clr",
    "Lrp.Props.C54_lalr"
   ],
   "note": ""
  },
  {
   "property": "C55",
   "status": "proved",
   "theorems": [
    "Lrp.Props.C55_debug",
    "Lrp.Props.C55_stack"
   ],
   "note": ""
  },
  {
   "property": "C56",
   "status": "proved",
   "theorems": [
    "Lrp.Props.C56_total",
    "Lrp.Props.C56_value"
   ],
   "note": ""
  },
  {
   "property": "C57",
   "status": "proved",
   "theorems": [
    "Lrp.Props.C57_all_shown",
    "Lrp.Props.C57_columns"
   ],
   "note": ""
  },
  {
   "property": "C58",
   "status": "proved",
   "theorems": [
    "Lrp.Props.C58_lets"
   ],
   "note": ""
  },
  {
   "property": "C59",
   "status": "proved",
   "theorems": [
    "Lrp.Props.C59_builds",
    "Lrp.Props.C59_rejects"
   ],
   "note": ""
  },
  {
   "property": "C60",
   "status": "partial",
   "theorems": [
    "Lrp.Props.C60_partial",
    "Lrp.Props.C60_false"
   ],
   "note": "False of the code: an alias written without & is also copied (C60_false). Proved: every alias of a taken item is copied, so the claim holds for :&name."
  },
  {
   "property": "C61",
   "status": "partial",
   "theorems": [
    "Lrp.Props.C61_actual",
    "Lrp.Props.C61_partial",
    "Lrp.Props.C61_false"
   ],
   "note": "False of the code when the block ends with }}% (C61_false; a rule can get lost, WopSamples.braces_rule_lost). C61_partial covers blocks whose first }% is not preceded by }, C61_actual says where every block ends."
  },
  {
   "property": "C62",
   "status": "proved",
   "theorems": [
    "Lrp.Props.C62_total"
   ],
   "note": ""
  },
  {
   "property": "C63",
   "status": "proved",
   "theorems": [
    "Lrp.Props.C63_lr1",
    "Lrp.Props.C63_no_conflicts",
    "Lrp.Props.C63_clr_iff",
    "Lrp.Props.C63_parses",
    "Lrp.Props.C63_needs_productive"
   ],
   "note": "C63_needs_productive shows that the hypothesis on useless nonterminals is needed in release builds."
  },
  {
   "property": "C64",
   "status": "proved",
   "theorems": [
    "Lrp.Props.C64_slr1",
    "Lrp.Props.C64_no_conflicts",
    "Lrp.Props.C64_slr_iff",
    "Lrp.Props.C64_slr_all_builds"
   ],
   "note": "C64_slr_all_builds covers the release builds that C64_slr_iff leaves out: there the sets are those of C07_exact."
  },
  {
   "property": "C65",
   "status": "partial",
   "theorems": [
    "Lrp.Props.C65_clr_conflicts",
    "Lrp.Props.C65_slr_conflicts",
    "Lrp.Props.C65_accepts",
    "Lrp.Props.C65_partial",
    "Lrp.Props.C65_false",
    "Lrp.Props.C65_lalr_conflicts",
    "Lrp.Props.C65_lalr_partial"
   ],
   "note": "False of Lalr (C65_false, C65_lalr_conflicts): which lookaheads are passed on depends on the order of the symbols. C65_partial proves the full statement for Slr and Clr, C65_lalr_partial for Lalr tables in which lookaheads have been passed on and no states mixed up. C102 proves that the order is all the Lalr table depends on."
  },
  {
   "property": "C66",
   "status": "proved",
   "theorems": [
    "Lrp.Props.C66_grammar",
    "Lrp.Props.C66_accepts"
   ],
   "note": ""
  },
  {
   "property": "C67",
   "status": "proved",
   "theorems": [
    "Lrp.Props.C67_sound",
    "Lrp.Props.C67_exact",
    "Lrp.Props.C67_panics"
   ],
   "note": ""
  },
  {
   "property": "C68",
   "status": "proved",
   "theorems": [
    "Lrp.Props.C68_observer",
    "Lrp.Props.C68_clr",
    "Lrp.Props.C68_conflict_free"
   ],
   "note": ""
  },
  {
   "property": "C69",
   "status": "partial",
   "theorems": [
    "Lrp.Props.C69_lalr1_partial",
    "Lrp.Props.C69_no_conflicts_partial",
    "Lrp.Props.C69_iff_partial",
    "Lrp.Props.C69_clr",
    "Lrp.Props.C69_classes",
    "Lrp.Props.C69_false"
   ],
   "note": "False in both directions (C69_false): update_closures may add lookaheads to a state that is not the successor (finding 19), and lookaheads may get lost (finding 3). C69_iff_partial proves it for tables where neither happens (Propagated, Unmixed: both conditions on the table, decidable); C69_clr and C69_classes hold without them."
  },
  {
   "property": "C70",
   "status": "proved",
   "theorems": [
    "Lrp.Props.C70_no_conflicts",
    "Lrp.Props.C70_accepts",
    "Lrp.Props.C70_classes",
    "Lrp.Props.C70_needs_propagated"
   ],
   "note": ""
  },
  {
   "property": "C71",
   "status": "proved",
   "theorems": [
    "Lrp.Props.C71_same_cores",
    "Lrp.Props.C71_lalr_least",
    "Lrp.Props.C71_lalr_slr",
    "Lrp.Props.C71_same_table",
    "Lrp.Props.C71_iff_count",
    "Lrp.Props.C71_accepts",
    "Lrp.Props.C71_needs_no_body"
   ],
   "note": ""
  },
  {
   "property": "C72",
   "status": "proved",
   "theorems": [
    "Lrp.Props.C72_pure",
    "Lrp.Props.C72_order",
    "Lrp.Props.C72_error",
    "Lrp.Props.C72_follows",
    "Lrp.Props.C72_panics",
    "Lrp.Props.C72_once"
   ],
   "note": ""
  },
  {
   "property": "C73",
   "status": "partial",
   "theorems": [
    "Lrp.Props.C73_ok_partial",
    "Lrp.Props.C73_error",
    "Lrp.Props.C73_reports_partial",
    "Lrp.Props.C73_overwrites",
    "Lrp.Props.C73_panics",
    "Lrp.Props.C73_false"
   ],
   "note": "C73_ok_partial and C73_reports_partial prove the first two parts. The third is false (C73_false, finding 21): after a syntax error main goes on with the bottom of the parser stack. C73_error, C73_overwrites and C73_panics say exactly what happens then: main works on the longest beginning of the source that is a program and is followed by the first token of a declaration, and panics if there is none."
  },
  {
   "property": "C74",
   "status": "proved",
   "theorems": [
    "Lrp.Props.C74_reads"
   ],
   "note": "Two rules whose names are the same path written differently get the same key (WopSamples.twice_run, finding 23)."
  },
  {
   "property": "C75",
   "status": "partial",
   "theorems": [
    "Lrp.Props.C75_partial",
    "Lrp.Props.C75_false"
   ],
   "note": "False for rules named by paths (C75_false, finding 22). C75_partial proves the full statement for rules named by words, names of aliases that are words, types without >, and code blocks with balanced braces."
  },
  {
   "property": "C76",
   "status": "proved",
   "theorems": [
    "Lrp.Props.C76_values"
   ],
   "note": "An alias named toks makes the function fail (WopSamples.toks_run, finding 24)."
  },
  {
   "property": "C77",
   "status": "partial",
   "theorems": [
    "Lrp.Props.C77_partial",
    "Lrp.Props.C77_false"
   ],
   "note": "False for aliases inside optional groups (C77_false, finding 26). C77_partial proves the statement, and gives the types, for alternatives in which no group with aliases on it or inside is optional, the alternatives of a group have the same aliases, and no name is put both on an item and on a group."
  },
  {
   "property": "C78",
   "status": "proved",
   "theorems": [
    "Lrp.Props.C78_list",
    "Lrp.Props.C78_order",
    "Lrp.Props.C78_error",
    "Lrp.Props.C78_follows",
    "Lrp.Props.C78_panic",
    "Lrp.Props.C78_live_clr",
    "Lrp.Props.C78_live"
   ],
   "note": "C78_error, C78_panic and the live theorems are for iterators that yield only terminals; C78_live is for conflict-free tables of productive grammars, C78_live_clr for all Clr tables."
  },
  {
   "property": "C79",
   "status": "proved",
   "theorems": [
    "Lrp.Props.C79_returns_iff",
    "Lrp.Props.C79_debug_iff",
    "Lrp.Props.C79_panics_iff",
    "Lrp.Props.C79_diverges_iff"
   ],
   "note": ""
  },
  {
   "property": "C80",
   "status": "proved",
   "theorems": [
    "Lrp.Props.C80_result",
    "Lrp.Props.C80_rows",
    "Lrp.Props.C80_last",
    "Lrp.Props.C80_derivation"
   ],
   "note": "C80_rows and C80_last are for inputs of terminal tokens (C80_derivation needs no such hypothesis)."
  },
  {
   "property": "C81",
   "status": "proved",
   "theorems": [
    "Lrp.Props.C81_answer",
    "Lrp.Props.C81_main"
   ],
   "note": ""
  },
  {
   "property": "C82",
   "status": "proved",
   "theorems": [
    "Lrp.Props.C82_item",
    "Lrp.Props.C82_items",
    "Lrp.Props.C82_states",
    "Lrp.Props.C82_actions",
    "Lrp.Props.C82_errors",
    "Lrp.Props.C82_legible"
   ],
   "note": "The alternate form {:#?} is not modelled."
  },
  {
   "property": "C83",
   "status": "proved",
   "theorems": [
    "Lrp.Props.C83_tokens",
    "Lrp.Props.C83_prints"
   ],
   "note": ""
  },
  {
   "property": "C84",
   "status": "proved",
   "theorems": [
    "Lrp.Props.C84_ok",
    "Lrp.Props.C84_error",
    "Lrp.Props.C84_panics",
    "Lrp.Props.C84_reads"
   ],
   "note": "C84_ok, C84_error and C84_panics cover all sources; C84_reads is for sources whose names do not contain the punctuation that ends them in the text (GrammarLegible, ReductorLegible, Braceless)."
  },
  {
   "property": "C85",
   "status": "partial",
   "theorems": [
    "Lrp.Props.C85_success",
    "Lrp.Props.C85_forgets",
    "Lrp.Props.C85_again_partial",
    "Lrp.Props.C85_front",
    "Lrp.Props.C85_false",
    "Lrp.Props.C85_false_debug"
   ],
   "note": "False for IncompleteExec in all builds (C85_forgets, C85_false_debug) and for a conflict found under a nonterminal in release builds of Slr (C85_false). C85_again_partial covers all other results: for Clr and Lalr everything but IncompleteExec."
  },
  {
   "property": "C86",
   "status": "partial",
   "theorems": [
    "Lrp.Props.C86_columns_partial",
    "Lrp.Props.C86_kinds",
    "Lrp.Props.C86_false",
    "Lrp.Props.C86_met"
   ],
   "note": "False in release builds of grammars in which FIRST or FOLLOW sets hold nonterminals (C86_false). C86_columns_partial covers debug builds and all grammars whose graphs fold away; C86_kinds all; C86_met: in Clr and Lalr tables no run meets such a conflict."
  },
  {
   "property": "C87",
   "status": "proved",
   "theorems": [
    "Lrp.Props.C87_incomplete",
    "Lrp.Props.C87_agree",
    "Lrp.Props.C87_needs_propagated"
   ],
   "note": "For Lalr the lookaheads must have been passed on (C87_needs_propagated)."
  },
  {
   "property": "C88",
   "status": "proved",
   "theorems": [
    "Lrp.Props.C88_clr",
    "Lrp.Props.C88_slr",
    "Lrp.Props.C88_false_lalr"
   ],
   "note": "C88_clr and C88_slr; C88_false_lalr shows why Lalr is excluded."
  },
  {
   "property": "C89",
   "status": "proved",
   "theorems": [
    "Lrp.Props.C89_clr",
    "Lrp.Props.C89_false_slr",
    "Lrp.Props.C89_same",
    "Lrp.Props.C89_parses"
   ],
   "note": "Identical tables for Clr and Lalr (C89_same), hence identical parses (C89_parses); C89_false_slr shows why Slr is excluded."
  },
  {
   "property": "C90",
   "status": "proved",
   "theorems": [
    "Lrp.Props.C90_met",
    "Lrp.Props.C90_iff",
    "Lrp.Props.C90_lr1",
    "Lrp.Props.C90_needs_productive"
   ],
   "note": "C90_met: a conflict cell under a terminal has an input that parse answers with Conflict (Slr and Clr; Lalr with Propagated, Unmixed and one production of the start rule). C90_iff: no conflicts in the table iff no input is answered with Conflict (for Slr in debug builds or when the graphs fold away; nonterminal columns of Clr and Lalr are handled in every build). C90_lr1: with C63, LR(1) iff the Clr parser answers no input with Conflict. Hypothesis: every rule derives a string of terminals; C90_needs_productive shows a Clr table with a conflict that no input meets otherwise."
  },
  {
   "property": "C91",
   "status": "proved",
   "theorems": [
    "Lrp.Props.C91_makes",
    "Lrp.Props.C91_debug",
    "Lrp.Props.C91_empty"
   ],
   "note": "C91_makes: exact, for every builder and build, in terms of the items as written (which can be left out, what alternatives begin and end with, what stands side by side); C91_debug: the simpler form for debug builds with a token for the end of input; C91_empty: every builder panics if an alternative can be left out. WopSamples.sum_makes and void_panics are the concrete cases."
  },
  {
   "property": "C92",
   "status": "proved",
   "theorems": [
    "Lrp.Props.C92_same",
    "Lrp.Props.C92_returns",
    "Lrp.Props.C92_again",
    "Lrp.Props.C92_lalr_panics",
    "Lrp.Props.C92_not_clr"
   ],
   "note": "C92_same: whatever with_table returns parses every input as before; C92_returns: Slr and Clr always return; C92_again: the exact result for the same method; C92_lalr_panics: Lalr on a Clr table. C92_not_clr shows a grammar for which Clr::with_table on the Slr table answers Conflict where Clr::new accepts. Whether Lalr::with_table returns on Slr and Lalr tables depends on the grammar and is not characterised."
  },
  {
   "property": "C93",
   "status": "proved",
   "theorems": [
    "Lrp.Props.C93_height",
    "Lrp.Props.C93_bounded",
    "Lrp.Props.C93_unbounded",
    "Lrp.Props.C93_iff"
   ],
   "note": "C93_height and C93_bounded hold for every table, with or without conflicts; C93_unbounded needs a table without conflicts (Lalr: with lookaheads passed on), productive rules and a start rule with one alternative in no body; C93_iff puts the two together."
  },
  {
   "property": "C94",
   "status": "proved",
   "theorems": [
    "Lrp.Props.C94_below",
    "Lrp.Props.C94_makes",
    "Lrp.Props.C94_makes_release",
    "Lrp.Props.C94_sound",
    "Lrp.Props.C94_exact",
    "Lrp.Props.C94_value",
    "Lrp.Props.C94_clr",
    "Lrp.Props.C94_needs_wrapping"
   ],
   "note": "C94_makes (debug, exact), C94_makes_release (sufficient), C94_sound, C94_exact, C94_value for every builder; C94_clr: exact condition for the Clr table, for grammars whose rules all derive terminal strings and whose bodies do not contain the end symbol; C94_below: every reachable rule of a grammar with a conflict-free table. C94_needs_wrapping: without the new rule, release builds make parsers without conflicts that accept a non-sentence (Slr) or reject a sentence (Clr)."
  },
  {
   "property": "C95",
   "status": "proved",
   "theorems": [
    "Lrp.Props.C95_words",
    "Lrp.Props.C95_legible",
    "Lrp.Props.C95_reductors",
    "Lrp.Props.C95_grammar",
    "Lrp.Props.C95_file"
   ],
   "note": "C95_words and C95_legible need only that the source reads as a program (and no slash in paths); C95_reductors says what is left to the author; C95_grammar and C95_file compose them with C74 and C84. Spec.Commentless is the assumption about comments: a comment inside of a path lies inside its span and gets into the written name."
  },
  {
   "property": "C96",
   "status": "proved",
   "theorems": [
    "Lrp.Props.C96_lr1",
    "Lrp.Props.C96_lr1_symbol",
    "Lrp.Props.C96_makes",
    "Lrp.Props.C96_clr",
    "Lrp.Props.C96_parses",
    "Lrp.Props.C96_slr1",
    "Lrp.Props.C96_slr",
    "Lrp.Props.C96_false_lalr",
    "Lrp.Props.C96_needs_fresh",
    "Lrp.Props.C96_needs_reachable"
   ],
   "note": "C96_lr1 is about grammars alone (Knuth's LR(1)); C96_makes, C96_clr and C96_parses carry it to the tables; C96_slr1 and C96_slr are the same for SLR(1) and the Slr table. C96_false_lalr, C96_needs_fresh and C96_needs_reachable show what cannot be dropped."
  },
  {
   "property": "C97",
   "status": "proved",
   "theorems": [
    "Lrp.Props.C97_release",
    "Lrp.Props.C97_same",
    "Lrp.Props.C97_debug_iff",
    "Lrp.Props.C97_panics",
    "Lrp.Props.C97_reduce"
   ],
   "note": "All three methods; Tidy is what the two kinds of debug assertions that can fail check. Those on kernels (slr.rs, clr.rs, lalr.rs) never fail: C12-C14."
  },
  {
   "property": "C98",
   "status": "proved",
   "theorems": [
    "Lrp.Props.C98_error",
    "Lrp.Props.C98_panics",
    "Lrp.Props.C98_builds",
    "Lrp.Props.C98_grammar",
    "Lrp.Props.C98_tables",
    "Lrp.Props.C98_reductors"
   ],
   "note": "Two runs of from_str on the same tokens, with any two families of orders for the hash sets; the grammar is compared as a map, the reductors as functions."
  },
  {
   "property": "C99",
   "status": "proved",
   "theorems": [
    "Lrp.Props.C99_within",
    "Lrp.Props.C99_decides",
    "Lrp.Props.C99_acyclic",
    "Lrp.Props.C99_validate"
   ],
   "note": "All three methods, tables with or without conflicts, no condition on productivity. That a loop cannot be told from a late panic of a reductor is why C99_decides asks that none panics."
  },
  {
   "property": "C100",
   "status": "proved",
   "theorems": [
    "Lrp.Props.C100_places",
    "Lrp.Props.C100_makes",
    "Lrp.Props.C100_clr",
    "Lrp.Props.C100_slr",
    "Lrp.Props.C100_lalr",
    "Lrp.Props.C100_agree"
   ],
   "note": "Results: for conflict-free tables. Lalr conflicts under the conditions of C69 (C65 and C69 show what goes wrong without them)."
  },
  {
   "property": "C101",
   "status": "proved",
   "theorems": [
    "Lrp.Props.C101_same",
    "Lrp.Props.C101_fails"
   ],
   "note": "FIRST, FOLLOW, states and actions; the map of kernels is not compared. That no rule has the same alternative twice is needed: in the order of positions such alternatives are told apart by their numbers."
  },
  {
   "property": "C102",
   "status": "proved",
   "theorems": [
    "Lrp.Props.C102_same",
    "Lrp.Props.C102_fails"
   ],
   "note": "FIRST, FOLLOW, states and actions; the map of kernels is not compared."
  },
  {
   "property": "C103",
   "status": "proved",
   "theorems": [
    "Lrp.Props.C103_fixed_iff",
    "Lrp.Props.C103_same_count",
    "Lrp.Props.C103_stops",
    "Lrp.Props.C103_built",
    "Lrp.Props.C103_same_outcome",
    "Lrp.Props.C103_conflicts",
    "Lrp.Props.C103_example"
   ],
   "note": "Not claimed: that the last table is the smallest one that parses alike."
  },
  {
   "property": "C104",
   "status": "proved",
   "theorems": [
    "Lrp.Props.C104_related",
    "Lrp.Props.C104_typed",
    "Lrp.Props.C104_translated"
   ],
   "note": ""
  },
  {
   "property": "C105",
   "status": "proved",
   "theorems": [
    "Lrp.Props.C105_unread",
    "Lrp.Props.C105_panic",
    "Lrp.Props.C105_reported",
    "Lrp.Props.C105_stays"
   ],
   "note": ""
  },
  {
   "property": "C106",
   "status": "proved",
   "theorems": [
    "Lrp.Props.C106_sentence",
    "Lrp.Props.C106_unique",
    "Lrp.Props.C106_rule",
    "Lrp.Props.C106_same",
    "Lrp.Props.C106_loop",
    "Lrp.Props.C106_ends",
    "Lrp.Props.C106_both",
    "Lrp.Props.C106_dangling",
    "Lrp.Props.C106_false_lalr"
   ],
   "note": "C106_false_lalr: not for all Lalr tables. C106_sentence asks for reductors that give values to the trees; C106_unique takes any reductors. AllProductive is asked of the whole grammar, although the symbols around the rule would do."
  },
  {
   "property": "C107",
   "status": "proved",
   "theorems": [
    "Lrp.Props.C107_only_first",
    "Lrp.Props.C107_first",
    "Lrp.Props.C107_exactly",
    "Lrp.Props.C107_lost"
   ],
   "note": "C107_lost shows the lost sentence for all three methods. C107_only_first holds of every Lalr table too."
  },
  {
   "property": "C108",
   "status": "proved",
   "theorems": [
    "Lrp.Props.C108_anytime",
    "Lrp.Props.C108_taken",
    "Lrp.Props.C108_mend",
    "Lrp.Props.C108_resume",
    "Lrp.Props.C108_headway",
    "Lrp.Props.C108_sound",
    "Lrp.Props.C108_false_slr",
    "Lrp.Props.C108_false_lalr"
   ],
   "note": "C108_false_slr and C108_false_lalr show that (2) is not true of the other methods. A `Peekable` buffer is modelled by the list of its tokens; replacing it is replacing the list."
  },
  {
   "property": "C109",
   "status": "proved",
   "theorems": [
    "Lrp.Props.C109_completable",
    "Lrp.Props.C109_after_error",
    "Lrp.Props.C109_listed",
    "Lrp.Props.C109_clr_list"
   ],
   "note": "The rest is shown to exist; no function that computes it is part of the code or of the model."
  },
  {
   "property": "C110",
   "status": "proved",
   "theorems": [
    "Lrp.Props.C110_lr1",
    "Lrp.Props.C110_makes",
    "Lrp.Props.C110_exact",
    "Lrp.Props.C110_parses",
    "Lrp.Props.C110_slr1",
    "Lrp.Props.C110_slr",
    "Lrp.Props.C110_lalr",
    "Lrp.Props.C110_value",
    "Lrp.Props.C110_needs_mark",
    "Lrp.Props.C110_lalr1",
    "Lrp.Props.C110_unmixed"
   ],
   "note": "C110_lr1, C110_slr1 and C110_lalr1 say it of the grammars, the others of the tables and parsers; C110_needs_mark shows that the mark has to be used nowhere else."
  },
  {
   "property": "C111",
   "status": "proved",
   "theorems": [
    "Lrp.Props.C111_lr1",
    "Lrp.Props.C111_makes",
    "Lrp.Props.C111_exact",
    "Lrp.Props.C111_parses",
    "Lrp.Props.C111_slr1",
    "Lrp.Props.C111_slr",
    "Lrp.Props.C111_lalr",
    "Lrp.Props.C111_needs_new",
    "Lrp.Props.C111_lalr1",
    "Lrp.Props.C111_unmixed",
    "Lrp.Props.C111_slr_conflict"
   ],
   "note": "C111_lalr1 and C111_unmixed are for grammars whose Slr tables may have conflicts (C111_slr_conflict); C111_needs_new shows that the brackets have to be used in neither grammar."
  },
  {
   "property": "C112",
   "status": "proved",
   "theorems": [
    "Lrp.Props.C112_makes",
    "Lrp.Props.C112_lr1",
    "Lrp.Props.C112_slr1",
    "Lrp.Props.C112_exact",
    "Lrp.Props.C112_parses",
    "Lrp.Props.C112_lalr1",
    "Lrp.Props.C112_unmixed",
    "Lrp.Props.C112_slr",
    "Lrp.Props.C112_lalr",
    "Lrp.Props.C112_value",
    "Lrp.Props.C112_needs_apart"
   ],
   "note": "C112_lr1, C112_slr1 and C112_lalr1 say it of the grammars, C112_makes, C112_parses, C112_slr, C112_lalr, C112_unmixed, C112_exact and C112_value of the tables and parsers; C112_needs_apart is the counterexample for texts that begin alike."
  },
  {
   "property": "C113",
   "status": "proved",
   "theorems": [
    "Lrp.Props.C113_makes",
    "Lrp.Props.C113_lr1",
    "Lrp.Props.C113_exact",
    "Lrp.Props.C113_parses",
    "Lrp.Props.C113_slr1",
    "Lrp.Props.C113_slr",
    "Lrp.Props.C113_lalr",
    "Lrp.Props.C113_lalr1",
    "Lrp.Props.C113_unmixed",
    "Lrp.Props.C113_value",
    "Lrp.Props.C113_needs_nodup",
    "Lrp.Props.C113_needs_fresh"
   ],
   "note": "The Clr table needs that every rule derives a text (C63). The reductors of x must return the item of their single token for the values to agree."
  },
  {
   "property": "C114",
   "status": "proved",
   "theorems": [
    "Lrp.Props.C114_makes",
    "Lrp.Props.C114_lr1",
    "Lrp.Props.C114_exact",
    "Lrp.Props.C114_parses",
    "Lrp.Props.C114_slr1",
    "Lrp.Props.C114_slr",
    "Lrp.Props.C114_lalr",
    "Lrp.Props.C114_lalr1",
    "Lrp.Props.C114_unmixed",
    "Lrp.Props.C114_value",
    "Lrp.Props.C114_needs_first"
   ],
   "note": "C114_lr1, C114_slr1 and C114_lalr1 say it of the grammars, the others of the tables and parsers; C114_needs_first is the counterexample for a token that the first grammar uses."
  }
 ]
}
