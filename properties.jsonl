{"id": "C01", "title": "Fixpoint iteration returns the first fixpoint of the orbit", "statement": "Whenever `transitive(seed, f)` returns a value v, v is obtained from seed by applying f some number of times, f(v) = v, and no earlier iterate was a fixpoint; it returns exactly when the orbit of seed reaches a fixpoint, and otherwise never returns.", "quantifier": "every type, every seed, every step function (including panicking ones)", "why_tests_cant": "quantifies over all functions and unboundedly many iterations, and speaks about non-termination", "anchors": ["src/lib.rs:transitive"]}
{"id": "C02", "title": "Production numbering is faithful", "statement": "`Rule::new(name, bodies)` stores exactly the given bodies in the given order, the i-th one carrying index i; `Rule::single` is the one-body case; so (body, index) pairs of one rule are pairwise distinct and reductor number i always belongs to the i-th declared body.", "quantifier": "every name and every list of bodies, of any length", "why_tests_cant": "unbounded lists of bodies", "anchors": ["src/grammar.rs:Rule::new", "src/grammar.rs:Rule::single"]}
{"id": "C03", "title": "Grammar symbol classification", "statement": "`Grammar::new(start, rules, eof)` classifies a symbol as terminal iff it has no rule; `terminals` is exactly {eof} plus the symbols without a rule occurring in some body; `symbols` is exactly the rule names plus `terminals`; the basis is the start rule's first production at point 0 with lookahead {eof}. It panics exactly when the start symbol has no rule, its rule has no production, or (debug build) its rule does not have exactly one production.", "quantifier": "every start symbol, every rule map, every eof symbol, debug and release builds", "why_tests_cant": "ranges over all grammars", "anchors": ["src/grammar.rs:Grammar::new", "src/grammar.rs:Grammar::is_terminal", "src/grammar.rs:Grammar::symbols"]}
{"id": "C04", "title": "grammar_map! keeps the last declaration of each name and ignores declaration order", "statement": "A rule looked up in the map built by `grammar_map!` is `Rule::new` of the last declaration with that name; a name has a rule iff it is declared; two declaration lists with the same last declaration per name give equal maps (so permuting distinct declarations changes nothing); every map in which each rule was made by `Rule::new` and stands under its own name, however it was filled, is the map of some declarations.", "quantifier": "every list of declarations, any length, with repetitions, and every permutation of one", "why_tests_cant": "quantifies over all declaration lists and permutations", "anchors": ["src/lib.rs:grammar_map"]}
{"id": "C05", "title": "FIRST sets are exact", "statement": "Whenever `Tabler::new` returns, for every nonterminal A and terminal t: t is in `first[A]` iff A derives some sentential form starting with t.", "quantifier": "every grammar built from declarations whose construction returns, every nonterminal, every terminal, derivations of any length", "why_tests_cant": "the right-hand side quantifies over infinitely many derivations", "anchors": ["src/tabler.rs:gen_first", "src/tabler.rs:first_step", "src/tabler.rs:proc_first"]}
{"id": "C06", "title": "The FIRST/FOLLOW computation terminates", "statement": "`Tabler::new` returns for every grammar without empty productions.", "quantifier": "every grammar without empty productions (throughout: eof is not the name of a rule)", "why_tests_cant": "termination over an infinite family of grammars", "anchors": ["src/tabler.rs:Tabler::new", "src/tabler.rs:proc_first", "src/tabler.rs:proc_follow", "src/lib.rs:transitive"]}
{"id": "C07", "title": "FOLLOW sets are exact", "statement": "Whenever `Tabler::new` returns: if start·eof derives a sentential form in which terminal t stands immediately after nonterminal A then t is in `follow[A]`; if every nonterminal is reachable from the start symbol the converse holds too.", "quantifier": "every grammar whose construction returns, every nonterminal and terminal, derivations of any length", "why_tests_cant": "quantifies over all derivations", "anchors": ["src/tabler.rs:gen_follow", "src/tabler.rs:follow_step", "src/tabler.rs:proc_follow"]}
{"id": "C08", "title": "FIRST and FOLLOW contain only terminals", "statement": "Whenever `Tabler::new` returns, every symbol in every FIRST and FOLLOW set is a terminal (the invariant the library asserts in debug builds).", "quantifier": "every grammar, debug and release builds (throughout: eof is not the name of a rule)", "why_tests_cant": "ranges over all grammars", "anchors": ["src/tabler.rs:proc_first", "src/tabler.rs:proc_follow"]}
{"id": "C09", "title": "Empty productions are rejected, and only they", "statement": "`Tabler::new` panics with \"productions should have at least one symbol\" iff some rule has an empty production; on grammars made by declarations it has no other release-build panic.", "quantifier": "every grammar built from declarations", "why_tests_cant": "ranges over all grammars", "anchors": ["src/tabler.rs:gen_first", "src/tabler.rs:gen_follow", "src/tabler.rs:first_step"]}
{"id": "C10", "title": "LR(0) closure of Slr is the least closed superset", "statement": "`Slr::prop_closure(seed)` always returns; the result contains seed, is closed under adding the productions of every nonterminal standing at a point, and is contained in every closed superset of seed; applying it again changes nothing.", "quantifier": "every grammar, every seed set of positions", "why_tests_cant": "all finite sets of items, fixpoint iteration of unbounded length", "anchors": ["src/slr.rs:prop_closure", "src/slr.rs:closure"]}
{"id": "C11", "title": "LR(1) closure of Clr is the least closed superset", "statement": "`Clr::prop_closure(seed)` always returns; the result contains seed, is closed under the LR(1) closure rule (lookahead FIRST of the next symbol, or inherited), and is contained in every closed superset; applying it again changes nothing.", "quantifier": "every grammar, every seed set of positions", "why_tests_cant": "all finite sets of items, fixpoint iteration of unbounded length", "anchors": ["src/clr.rs:prop_closure", "src/clr.rs:closure", "src/tabler.rs:first_of"]}
{"id": "C12", "title": "Slr construction always terminates without panicking", "statement": "For every table returned by `Tabler::new` whose FOLLOW covers the used rules, `Slr::with_table` returns: the state enumeration stops and the documented-impossible panics (`kernels is incomplete`, debug assertions) do not happen.", "quantifier": "every grammar for which Tabler::new returns, debug and release builds", "why_tests_cant": "termination and absence of panics over all grammars", "anchors": ["src/slr.rs:proc_closures", "src/slr.rs:proc_actions", "src/slr.rs:decision"]}
{"id": "C13", "title": "Clr construction always terminates without panicking", "statement": "For every table returned by `Tabler::new`, `Clr::with_table` returns and none of its panics can occur.", "quantifier": "every grammar for which Tabler::new returns, debug and release builds", "why_tests_cant": "termination and absence of panics over all grammars", "anchors": ["src/clr.rs:proc_closures", "src/clr.rs:proc_actions", "src/clr.rs:decision"]}
{"id": "C14", "title": "Lalr construction always terminates without panicking", "statement": "For every table returned by `Tabler::new`, `Lalr::with_table` returns and none of its panics (missing kernel, `kernels is incomplete`, debug assertions) can occur.", "quantifier": "every grammar for which Tabler::new returns, debug and release builds", "why_tests_cant": "termination of a recursive update scheme over all grammars", "anchors": ["src/lalr.rs:proc_closures", "src/lalr.rs:update_closures", "src/lalr.rs:update_state", "src/lalr.rs:decision"]}
{"id": "C15", "title": "Action tables are well formed", "statement": "In a table built by Slr, Clr or Lalr there is one row per state; every shift/goto target is the index of an existing row other than 0; shifts stand only under terminals and gotos only under nonterminals; every reduce names a production of the grammar and never the start rule.", "quantifier": "every grammar for which construction returns, every row and cell, also inside conflicts", "why_tests_cant": "ranges over all grammars and all cells", "anchors": ["src/slr.rs:proc_actions", "src/clr.rs:proc_actions", "src/lalr.rs:proc_actions", "src/dfa.rs:Action"]}
{"id": "C16", "title": "Conflicts are reported exactly and nothing is dropped", "statement": "For every row and symbol, the set of plain actions found in the cell (including inside nested conflicts) is exactly the set of decisions of the positions of that state; the cell is a `Conflict` iff at least two different decisions compete for it; hence `conflicts()` is empty iff every cell has at most one possible action.", "quantifier": "every grammar, every state, every symbol, any number of competing decisions", "why_tests_cant": "unbounded numbers of decisions per cell over all grammars", "anchors": ["src/slr.rs:proc_actions", "src/clr.rs:proc_actions", "src/lalr.rs:proc_actions", "src/tabler.rs:conflicts"]}
{"id": "C17", "title": "States are the canonical collection, without duplicates", "statement": "For Slr and Clr, every state is the closure of its kernel, distinct states have distinct kernels, state 0 is the closure of the basis, and the shift/goto entry of state i under X leads to the unique state whose kernel is the set of positions of i advanced over X.", "quantifier": "every grammar, every state and symbol", "why_tests_cant": "ranges over all grammars", "anchors": ["src/slr.rs:proc_closures", "src/slr.rs:goto", "src/clr.rs:proc_closures", "src/clr.rs:goto", "src/parser.rs:state_from_kernel"]}
{"id": "C18", "title": "Slr soundness", "statement": "If `validate(tokens)` on a parser built by `Slr::new` answers true, the sequence of token types is derivable from the start symbol — with or without conflicts in the table, provided the start symbol occurs in no body and eof is not the name of a rule.", "quantifier": "every grammar, every finite token sequence", "why_tests_cant": "all grammars and all inputs", "anchors": ["src/slr.rs:Slr::new", "src/parser.rs:validate", "src/dfa.rs:Dfa"]}
{"id": "C19", "title": "Clr soundness", "statement": "If `validate(tokens)` on a parser built by `Clr::new` answers true, the sequence of token types is derivable from the start symbol — with or without conflicts in the table, provided the start symbol occurs in no body and eof is not the name of a rule.", "quantifier": "every grammar, every finite token sequence", "why_tests_cant": "all grammars and all inputs", "anchors": ["src/clr.rs:Clr::new", "src/parser.rs:validate", "src/dfa.rs:Dfa"]}
{"id": "C20", "title": "Lalr soundness", "statement": "If `validate(tokens)` on a parser built by `Lalr::new` answers true, the sequence of token types is derivable from the start symbol — with or without conflicts in the table, provided the start symbol occurs in no body and eof is not the name of a rule.", "quantifier": "every grammar, every finite token sequence", "why_tests_cant": "all grammars and all inputs", "anchors": ["src/lalr.rs:Lalr::new", "src/parser.rs:validate", "src/dfa.rs:Dfa"]}
{"id": "C21", "title": "Slr completeness", "statement": "If the table built by `Slr::new` has no conflicts then `validate` answers true on every sentence of the grammar (start symbol in no body and with a single production, eof not the name of a rule).", "quantifier": "every grammar with a conflict-free Slr table, every sentence of any length", "why_tests_cant": "all grammars and all sentences", "anchors": ["src/slr.rs:Slr::new", "src/parser.rs:validate", "src/dfa.rs:Dfa"]}
{"id": "C22", "title": "Clr completeness", "statement": "If the table built by `Clr::new` has no conflicts then `validate` answers true on every sentence of the grammar (start symbol in no body and with a single production, eof not the name of a rule).", "quantifier": "every grammar with a conflict-free Clr table, every sentence of any length", "why_tests_cant": "all grammars and all sentences", "anchors": ["src/clr.rs:Clr::new", "src/parser.rs:validate", "src/dfa.rs:Dfa"]}
{"id": "C23", "title": "Lalr completeness", "statement": "If the table built by `Lalr::new` has no conflicts then `validate` answers true on every sentence of the grammar (start symbol in no body and with a single production, eof not the name of a rule).", "quantifier": "every grammar with a conflict-free Lalr table, every sentence of any length", "why_tests_cant": "all grammars and all sentences", "anchors": ["src/lalr.rs:Lalr::new", "src/lalr.rs:update_closures", "src/parser.rs:validate"]}
{"id": "C24", "title": "The parsed value is the bottom-up evaluation of a parse tree of the input", "statement": "When `parse(tokens, reductors)` succeeds, there is a parse tree of the input for the start rule such that the returned value is the value of the last child of its root, where each inner node is valued by calling the reductor registered under its rule name and production index on its children in order (so for a start rule with a one-symbol body: the value of that symbol's tree).", "quantifier": "every grammar, table kind, reductor map, value type and input (throughout: eof is not the name of a rule; the start symbol is in no body)", "why_tests_cant": "all grammars, all inputs and all user reductors", "anchors": ["src/dfa.rs:reduce", "src/dfa.rs:shift", "src/parser.rs:parse"]}
{"id": "C25", "title": "Conflict-free tables certify an unambiguous grammar", "statement": "If the Slr or Clr table has no conflicts, every token sequence has at most one parse tree from the start rule, and the parser's reductions follow that tree: it returns the value of the last child of the root if the reductors give values to all children, and panics if a reductor that the tree needs is missing or panics. (For Lalr this needs that no lookahead got lost: there is an ambiguous grammar whose Lalr table has no conflicts.)", "quantifier": "every grammar with a conflict-free table, every sentence, every pair of trees (throughout: eof is not the name of a rule; the start symbol has one alternative)", "why_tests_cant": "all grammars and pairs of derivations", "anchors": ["src/tabler.rs:conflicts", "src/slr.rs:Slr::new", "src/clr.rs:Clr::new"]}
{"id": "C26", "title": "Running a built parser never panics nor reports an internal error", "statement": "With a table built by Slr, Clr or Lalr, reductors present for every production and not panicking, and input tokens that are all terminals, no run panics (no stack underflow, no missing reductor) and the errors `MissingPreviousState`, `StateNotSpecified` never occur.", "quantifier": "every grammar, table kind, input of terminals, reductor map (throughout: eof is not the name of a rule)", "why_tests_cant": "all inputs and all reachable stacks", "anchors": ["src/dfa.rs:travel", "src/dfa.rs:reduce", "src/dfa.rs:Error"]}
{"id": "C27", "title": "Parsing terminates", "statement": "With a table built by Clr, `parse` returns on every finite input of terminals, with or without conflicts; with Slr it does so whenever the table is conflict-free and every nonterminal derives some terminal string, and with Lalr if in addition its lookaheads are propagated along all shifts and gotos. (With conflicts, Slr and Lalr tables can make `parse` run for ever.)", "quantifier": "every grammar, every finite input (throughout: eof is not the name of a rule)", "why_tests_cant": "termination over all inputs and grammars", "anchors": ["src/dfa.rs:trace", "src/dfa.rs:reduce", "src/dfa.rs:travel"]}
{"id": "C28", "title": "Input tokens typed with a nonterminal are rejected", "statement": "`validate` returns (and answers false) on inputs that contain a token whose type is a nonterminal of the grammar.", "quantifier": "every grammar, every input containing a nonterminal-typed token (throughout: eof is not the name of a rule; the start symbol is in no body; the start symbol has one alternative)", "why_tests_cant": "infinite family of inputs; non-termination is not observable by a test", "anchors": ["src/dfa.rs:travel", "src/dfa.rs:goto", "src/dfa.rs:trace"]}
{"id": "C29", "title": "Acceptance consumes the whole input; end of input is reported as such", "statement": "A run that succeeds has consumed every token; an input containing a token of the eof type is never accepted when eof occurs in no body; when the input is a proper prefix the reported error names eof as the unexpected symbol, and `UnexpectedEof` is never reported unless eof occurs in a body.", "quantifier": "every grammar, table kind and input (throughout: the start symbol has one alternative; where parse trees or positions of errors are concerned, the tokens have terminal types)", "why_tests_cant": "all inputs", "anchors": ["src/dfa.rs:accept", "src/dfa.rs:shift", "src/dfa.rs:trace"]}
{"id": "C30", "title": "Errors are detected at the first wrong token (correct-prefix property)", "statement": "At every moment of a run the tokens consumed so far are a prefix of some sentence (for grammars whose nonterminals all derive terminal strings). For Clr moreover, the reported token itself cannot follow the consumed prefix.", "quantifier": "every grammar, input and moment of the run (throughout: eof is not the name of a rule; the start symbol is in no body; the start symbol has one alternative; where parse trees or positions of errors are concerned, the tokens have terminal types)", "why_tests_cant": "all inputs, all continuations", "anchors": ["src/dfa.rs:travel", "src/clr.rs:closure", "src/dfa.rs:Error::UnexpectedToken"]}
{"id": "C31", "title": "The expected-token list of UnexpectedToken is right", "statement": "The list reported with `UnexpectedToken` contains every terminal that could legally come next; for Clr every terminal of the list can legally come next; and it contains only tokens (terminals).", "quantifier": "every grammar, table kind, input (throughout: eof is not the name of a rule; the start symbol is in no body; the start symbol has one alternative)", "why_tests_cant": "all inputs and all continuations", "anchors": ["src/dfa.rs:travel", "src/dfa.rs:Error::UnexpectedToken"]}
{"id": "C32", "title": "A Dfa can be reused through Dfa::parse", "statement": "`Dfa::parse(input)` on any Dfa of a built parser returns the same result as `Parser::parse` on that input.", "quantifier": "every grammar, every history of the Dfa, every input (throughout: eof is not the name of a rule; the start symbol is in no body; where parse trees or positions of errors are concerned, the tokens have terminal types)", "why_tests_cant": "all histories and inputs", "anchors": ["src/dfa.rs:parse", "src/dfa.rs:reset", "src/parser.rs:parse"]}
{"id": "C33", "title": "merged unions lookaheads by body", "statement": "`merged(state)` has exactly one position per body occurring in `state`, and its lookahead set is the union of the lookaheads of the positions of `state` with that body; it is idempotent.", "quantifier": "every set of positions", "why_tests_cant": "all finite sets of positions", "anchors": ["src/parser.rs:merged", "src/pos.rs:body_eq"]}
{"id": "C34", "title": "reduce_equals preserves parsing", "statement": "After `reduce_equals`, every run on every input has the same outcome: same success value, same accepted language, same kind of error with the same offending symbol and expected list, the same conflicts up to state renumbering.", "quantifier": "every table with in-range targets, every input, every reductor map", "why_tests_cant": "all tables and inputs", "anchors": ["src/tabler.rs:reduce_equals", "src/tabler.rs:reduced_actions", "src/tabler.rs:update_entry"]}
{"id": "C35", "title": "reduce_equals is total and never grows the table", "statement": "On a built table `reduce_equals` never panics; the new table has one row per distinct old row, in order of first occurrence, so it never has more rows; row 0 stays row 0; grammar, FIRST, FOLLOW, states and kernels are unchanged. (It is not idempotent: a second application can merge further rows.)", "quantifier": "every built table", "why_tests_cant": "all tables", "anchors": ["src/tabler.rs:reduce_equals", "src/tabler.rs:reduced_actions"]}
{"id": "C36", "title": "Power hierarchy of the three builders", "statement": "If the Slr table of a grammar is conflict-free then so are its Clr and Lalr tables, provided every nonterminal derives a terminal string, or the tables with lookaheads are built in debug mode, or FIRST and FOLLOW need no long cycles. (Without any of these, a release build can report conflicts in Clr and Lalr tables only.)", "quantifier": "every grammar for which construction returns (throughout: eof is not the name of a rule)", "why_tests_cant": "all grammars", "anchors": ["src/slr.rs", "src/clr.rs", "src/lalr.rs", "src/tabler.rs:conflicts"]}
{"id": "C37", "title": "Span slicing is half-open and total exactly on valid ranges", "statement": "`Span::new(a, b).from_source(s)` is the elements of s at positions a..b-1, and panics exactly when a > b or b > len; on a string it is the characters between the bytes a and b, and panics also when one of these is inside of a character; the conversions from tuples and ranges keep start and end.", "quantifier": "every slice, every string and every pair of indices", "why_tests_cant": "all slices and indices", "anchors": ["src/lib.rs:Span"]}
{"id": "C38", "title": "Tokens are consumed in order, each exactly once", "statement": "At every moment of a run, consumed tokens followed by the remaining buffer is the original input, and the leaves of the trees on the item stack, bottom to top, are exactly the consumed tokens.", "quantifier": "every grammar, table kind, input and moment of the run (throughout: eof is not the name of a rule; where parse trees or positions of errors are concerned, the tokens have terminal types)", "why_tests_cant": "all inputs and reachable states", "anchors": ["src/dfa.rs:shift", "src/dfa.rs:reduce", "src/dfa.rs:trace"]}
{"id": "C39", "title": "Position arithmetic", "statement": "`top`, `next` and `peek` read the symbol at the point, after it and k further; `finished` holds iff there is no symbol at the point; `clone_next` advances the point by one exactly on unfinished positions and changes nothing else; `body_eq` is equality up to lookahead; advancing from point 0 reaches `finished` after exactly the body's length steps.", "quantifier": "every position", "why_tests_cant": "all bodies and points", "anchors": ["src/pos.rs:Position"]}
{"id": "C40", "title": "State selection by symbol", "statement": "`sym_filter(state, X)` is exactly the set of positions of `state` standing before X, advanced by one, with lookahead and body kept.", "quantifier": "every set of positions and every symbol", "why_tests_cant": "all finite sets of positions", "anchors": ["src/tabler.rs:sym_filter", "src/pos.rs:clone_next"]}
{"id": "C41", "title": "wop: optional items and groups expand to exactly the described sequences", "statement": "The productions generated for a rule of a wop grammar are, in order, exactly the symbol sequences described by its alternatives: a plain item contributes its symbol, an optional item its symbol or nothing, a group one of its alternatives, an optional group one of its alternatives or nothing.", "quantifier": "every rule AST of any nesting depth and width", "why_tests_cant": "unbounded nesting and combination of optionals and groups", "anchors": ["wop/src/builder.rs:get_production", "wop/src/builder.rs:get_from_single_production"]}
{"id": "C42", "title": "wop: item aliases point at the aliased symbol", "statement": "In every generated production, the index of a present alias on a plain item is the position of that item's symbol in that production.", "quantifier": "every alternative of every rule in which no alias name is used twice, except that alternatives of a group may use the same name if all of them do", "why_tests_cant": "unbounded nesting", "anchors": ["wop/src/builder.rs:push_alias", "wop/src/builder.rs:get_from_single_production", "wop/src/builder.rs:ItemAlias::write"]}
{"id": "C43", "title": "wop: an alias of a skipped optional item is None", "statement": "In a generated production in which an optional aliased item was skipped, the alias is bound to `None`; in one in which it was taken the alias is bound to `Some`.", "quantifier": "every alternative of every rule in which no alias name is used twice, except that alternatives of a group may use the same name if all of them do, also below groups", "why_tests_cant": "unbounded nesting", "anchors": ["wop/src/builder.rs:set_sub_aliases", "wop/src/builder.rs:get_from_single_production"]}
{"id": "C44", "title": "wop: the alias of a group covers exactly the group's tokens", "statement": "In every generated production the range of an alias put on a group is exactly the positions of the symbols contributed by the group.", "quantifier": "every alternative of every rule in which no alias name is used twice, except that alternatives of a group may use the same name if all of them do", "why_tests_cant": "unbounded nesting", "anchors": ["wop/src/builder.rs:get_from_single_production"]}
{"id": "C45", "title": "wop: every production of a rule binds the same alias names", "statement": "After a group has been expanded, every production generated for it binds every alias name occurring in any of its alternatives, so user code blocks compile against every production.", "quantifier": "every rule AST, every iteration order of the hash sets", "why_tests_cant": "nondeterministic hash iteration order and unbounded nesting", "anchors": ["wop/src/builder.rs:set_sub_aliases"]}
{"id": "C46", "title": "wop: reductor i belongs to production i", "statement": "The generated reductor vector of a rule has exactly one function per generated production, in the same order, each carrying that production's code block.", "quantifier": "every rule", "why_tests_cant": "all rules", "anchors": ["wop/src/builder.rs:write_rule", "wop/src/builder.rs:write_rule_reduction"]}
{"id": "C47", "title": "wop: duplicate declarations and misplaced code blocks are rejected", "statement": "Processing a program panics iff a rule or alias name is declared twice (in the program, or before it in the same builder), an alternative of a rule lacks a code block, or an alternative of a group has one; otherwise every declaration is recorded, and nothing else is.", "quantifier": "every program AST", "why_tests_cant": "all programs", "anchors": ["wop/src/builder.rs:process", "wop/src/builder.rs:rule_decl", "wop/src/builder.rs:token_decl"]}
{"id": "C48", "title": "wop: token aliases apply to the rules declared after them", "statement": "In generated productions a symbol text is replaced by its alias target iff the alias was declared before the rule.", "quantifier": "every program AST", "why_tests_cant": "all programs and orders", "anchors": ["wop/src/builder.rs:token_decl", "wop/src/builder.rs:get_from_single_production"]}
{"id": "C49", "title": "wop: the wop grammar itself is conflict-free and its parser exact", "statement": "The Slr table of wop's own grammar has no conflicts, so the wop front end accepts exactly the token sequences derivable in that grammar, with a unique parse tree, and always terminates.", "quantifier": "every token sequence", "why_tests_cant": "all token sequences", "anchors": ["wop/src/out.rs:grammar", "wop/src/lib.rs:build_parser"]}
{"id": "C50", "title": "wop: AST construction never hits unreachable code and spans are tight", "statement": "For every accepted token sequence the generated reductors never reach their `unreachable!()`/`unwrap` failures, and the span of every AST node runs from the start of its first token to the end of its last token.", "quantifier": "every accepted token sequence", "why_tests_cant": "all token sequences", "anchors": ["wop/src/out.rs:reduct_map", "wop/src/builder.rs:process"]}
{"id": "C51", "title": "On a sentence a parser succeeds or reports a conflict", "statement": "On every sentence of the grammar a parser built by Slr or Clr — whatever conflicts its table has — returns, and either succeeds or reports a `Conflict`; it never rejects a sentence with another error and never loops on one.", "quantifier": "all grammars, all sentences, tables with or without conflicts (throughout: eof is not the name of a rule; the start symbol is in no body; the start symbol has one alternative; reductors that give a value to every parse tree)", "why_tests_cant": "infinitely many grammars and sentences; a test sees single runs", "anchors": ["src/dfa.rs:trace", "src/dfa.rs:start", "src/slr.rs", "src/clr.rs"]}
{"id": "C52", "title": "A Lalr table without conflicts means the grammar is LR(1)", "statement": "If the Lalr table of a grammar is conflict-free, then so is its Clr table.", "quantifier": "every grammar for which both constructions return (throughout: eof is not the name of a rule; the start symbol is in no body; the start symbol has one alternative)", "why_tests_cant": "all grammars", "anchors": ["src/lalr.rs:update_state", "src/lalr.rs:update_closures", "src/clr.rs", "src/tabler.rs:conflicts"]}
{"id": "C53", "title": "FIRST and FOLLOW have an entry for every nonterminal that can have one, and are printed in step", "statement": "After construction `first` has exactly the nonterminals as keys, and `follow` exactly the start symbol and the nonterminals that occur in some body elsewhere than as the last symbol of a body of their own. If every nonterminal is of that kind, the table of tokens printed by main.rs (which zips `first` with the values of `follow`) has a row for every nonterminal showing its own FIRST and FOLLOW sets.", "quantifier": "every grammar for which construction returns, all three builders, debug and release", "why_tests_cant": "all grammars; the misalignment appears only with unused nonterminals", "anchors": ["src/tabler.rs:gen_first", "src/tabler.rs:gen_follow", "src/main.rs:print_tokens_table"]}
{"id": "C54", "title": "Every transition can be looked up through final_kernel and state_from_kernel", "statement": "For every state and every symbol after a point in it, `final_kernel` of the advanced positions is Some, `state_from_kernel` of that is Some, and the number obtained is a state to which the table of actions leads (a shift or a goto, possibly within a conflict). So print_states_table never panics and lists exactly the transitions.", "quantifier": "every grammar for which construction returns, all three builders", "why_tests_cant": "all grammars; for Lalr the kernels are re-keyed while lookaheads are merged", "anchors": ["src/parser.rs:state_from_kernel", "src/parser.rs:final_kernel", "src/lalr.rs:final_kernel", "src/tabler.rs:sym_filter", "src/main.rs:print_states_table"]}
{"id": "C55", "title": "stack_fmt shows a path of the automaton", "statement": "At every moment of a run on tokens of terminal types, `Dfa::stack_fmt` writes `0 X1 s1 ... Xn sn`: one state more than symbols, starting with state 0, and the table leads from each state over the symbol after it to the next state.", "quantifier": "every grammar, builder, input, reductors and moment of the run (throughout: eof is not the name of a rule)", "why_tests_cant": "all runs", "anchors": ["src/dfa.rs:stack_fmt", "src/dfa.rs:shift", "src/dfa.rs:goto", "src/dfa.rs:reduce"]}
{"id": "C56", "title": "The cloned reductors return the symbol of the first child", "statement": "With `Parser::cloned` no reductor is missing or panics, and a successful parse returns, for the last child of the root of a parse tree of the input, the value of its token if it is a leaf and otherwise the symbol at its first child.", "quantifier": "every grammar whose start symbol occurs in no body, builder and input (throughout: eof is not the name of a rule)", "why_tests_cant": "all grammars and inputs", "anchors": ["src/parser.rs:cloned", "src/dfa.rs:transparent"]}
{"id": "C57", "title": "The printed table of actions is complete", "statement": "Every symbol that has a cell in some row of the action table is a symbol of the grammar and so has a title in the table printed by main.rs; under the title of a terminal, row i shows the action of state i. After the terminals comes the number of the state in a column without a title, so the action of a nonterminal stands one column to the right of its title.", "quantifier": "every grammar for which construction returns, all three builders, debug and release", "why_tests_cant": "all grammars", "anchors": ["src/main.rs:print_actions_table", "src/grammar.rs:symbols"]}
{"id": "C58", "title": "wop: the lets of every reductor give every alias exactly its items", "statement": "Take an alternative of a rule in which no alias name is used twice, except that alternatives of a group may use the same name if all of them do; in which an alternative of a group, whenever it is taken and contains a name, takes an item with that name; and in which the alternatives of named groups have as many symbols in a production as items written. The let statements of every generated reductor then run without panic on as many tokens as the production has symbols, and bind every alias of an item that the production takes to exactly the tokens of that item, and every name of which no item was taken to None.", "quantifier": "every alternative of that kind (in particular every one without optional items or groups inside groups), every production generated for it, every sequence of tokens", "why_tests_cant": "all rules and productions", "anchors": ["wop/src/builder.rs:get_from_single_production", "wop/src/builder.rs:write_rule_reduction"]}
{"id": "C59", "title": "wop: from_str builds exactly the declarations written", "statement": "When the tokens of a source read as a sequence of wop declarations, `Builder::from_str` returns a builder with exactly these imports, token aliases and rules, in order, and the productions of every rule are in order the symbol sequences its alternatives describe; it panics if a name is declared twice or a code block is missing or misplaced, and only then.", "quantifier": "every source and every token sequence the lexer may return for it, every iteration order of the hash sets, debug and release", "why_tests_cant": "all programs", "anchors": ["wop/src/builder.rs:from_str", "wop/src/out.rs:grammar", "wop/src/out.rs:reduct_map", "wop/src/builder.rs:process"]}
{"id": "C60", "title": "wop: `:name` binds a reference and `:&name` a copy", "statement": "In the reductors generated by `Builder::from_str`, the alias of an item that was taken is bound to a copy of the item if it is written `:&name`, and to a reference if it is written `:name`.", "quantifier": "every program, every alternative in which no alias name is used twice, except that alternatives of a group may use the same name if all of them do, every production and alias", "why_tests_cant": "all programs", "anchors": ["wop/src/out.rs:lrp_wop_RuleItem_1", "wop/src/builder.rs:write", "wop/src/builder.rs:get_from_single_production"]}
{"id": "C61", "title": "wop: a code block ends at the first `}%`", "statement": "The code block of an alternative starts at `->` and ends at the first `}%` after it.", "quantifier": "every source and every code block token of it", "why_tests_cant": "all sources", "anchors": ["wop/src/lib.rs:CodeBlock", "wop/src/lib.rs:lexer"]}
{"id": "C62", "title": "wop: from_str decides every source text, and what it builds can be dumped", "statement": "For every source, `Builder::from_str` returns an error if the tokens of the source do not read as declarations, panics if the declarations repeat a name or misplace a code block, and otherwise returns a builder; for it `dump_grammar` and `dump_reductor` write every rule without panic: the productions are the texts of its expansions, and each has a reductor with the type of the rule and the code written between `->` and `%`.", "quantifier": "every source, every iteration order of the hash sets, debug and release", "why_tests_cant": "all sources", "anchors": ["wop/src/lib.rs:lexer", "wop/src/builder.rs:from_str", "wop/src/builder.rs:write_rule", "wop/src/builder.rs:write_rule_reduction"]}
{"id": "C63", "title": "Clr has no conflicts exactly for LR(1) grammars", "statement": "For a grammar in which every nonterminal derives some terminal string, the table built by `Clr::new` has no conflicts iff the grammar is LR(1) by Knuth's definition (handles of right sentential forms are determined by one symbol of lookahead). A conflict-free Slr table, and a conflict-free Lalr table with lookaheads passed on, prove the same. So for LR(1) grammars Clr accepts exactly the sentences.", "quantifier": "every grammar with one start production and without useless nonterminals, debug and release (throughout: eof is not the name of a rule; the start symbol is in no body)", "why_tests_cant": "all grammars; LR(1) quantifies over all derivations", "anchors": ["src/clr.rs:Clr", "src/tabler.rs:add_action", "src/parser.rs:Parser"]}
{"id": "C64", "title": "Slr has no conflicts exactly for SLR(1) grammars", "statement": "For a grammar without useless nonterminals, the table built by `Slr::new` has no conflicts iff after every viable prefix the valid LR(0) items and FOLLOW sets, defined by derivations, leave one choice. Where a release build leaves nonterminals over in the sets, the same holds with the sets as they come out in place of the FOLLOW sets.", "quantifier": "every grammar with one start production and without useless nonterminals; the first claim in debug builds, and in release builds if no long cycles of leftmost or last nonterminals leave any over; the second in all builds (throughout: eof is not the name of a rule)", "why_tests_cant": "all grammars", "anchors": ["src/slr.rs:Slr", "src/tabler.rs:proc_follow", "src/tabler.rs:add_action"]}
{"id": "C65", "title": "Names and order of symbols do not matter", "statement": "Renaming the symbols of a grammar injectively (so possibly changing their order) changes neither whether the table has conflicts nor, up to renaming, the inputs accepted by a conflict-free table.", "quantifier": "every grammar with one start production, without useless nonterminals and without the start symbol in bodies, every injective renaming, every total order of the symbols, every input, each of the three builders, debug and release builds (throughout: eof is not the name of a rule)", "why_tests_cant": "all grammars and orders", "anchors": ["src/slr.rs:Slr", "src/clr.rs:Clr", "src/lalr.rs:Lalr", "src/grammar.rs:Grammar"]}
{"id": "C66", "title": "wop: the generated parser accepts what the source describes", "statement": "For every source that `Builder::from_str` takes, the grammar written by `dump_grammar`, whatever the order of the rules in the hash map, describes for every symbol exactly the token sequences that the source describes: those of one of the alternatives, with optional items and groups there or not, and a choice in every group. So a conflict-free Slr, Clr or (propagated) Lalr parser of it accepts exactly these sequences.", "quantifier": "every source, every meaning of its names as symbols that keeps rules apart, every iteration order, every input (throughout: the start symbol is in no body; the start symbol has one alternative)", "why_tests_cant": "all sources and all inputs", "anchors": ["wop/src/builder.rs:from_str", "wop/src/builder.rs:dump_grammar", "wop/src/builder.rs:write_rule", "src/parser.rs:validate"]}
{"id": "C67", "title": "wop: the generated parser computes what the code blocks describe", "statement": "For a source whose alternatives are as in C58, and with a start rule of one symbol: when the parser of the generated grammar, run with the generated reductors, returns a value, it is the value that the source describes for the input: bottom up, the code block of the alternative, with every alias bound to the values of the items it marks (inside Some if the item may be missing, None if it is), and the span from the first to the last item. If the table has no conflicts, the parser returns every such value, and panics if the source describes the input but a code block panics.", "quantifier": "every such source, every meaning of its names and code blocks, every iteration order, every input", "why_tests_cant": "all sources and all inputs", "anchors": ["wop/src/builder.rs:dump_reductor", "wop/src/builder.rs:write_rule_reduction", "wop/src/builder.rs:dump_grammar", "src/parser.rs:parse"]}
{"id": "C68", "title": "Parsing takes linear time", "statement": "On an input of n terminals the loop of `Dfa::trace` makes at most 2·n·(k+1)+1 rounds, k the number of declared nonterminals, so the observer given to `trace` is called at most so often; calls of `travel` nest at most two deep. This holds for every Clr table, with or without conflicts, and for every conflict-free Slr table or Lalr table with its lookaheads passed on, if all nonterminals are productive. An observer that only looks does not change the outcome.", "quantifier": "every grammar, every table built from it, every map of reductors, every input of terminals (throughout: eof is not the name of a rule)", "why_tests_cant": "a bound for all grammars and all inputs", "anchors": ["src/dfa.rs:trace", "src/dfa.rs:travel", "src/dfa.rs:reduce", "src/parser.rs:parse"]}
{"id": "C69", "title": "LALR(1) grammars and the Lalr table", "statement": "If every nonterminal derives a terminal string and the start symbol has one alternative and occurs in no body: the Lalr table has no conflicts iff the grammar is LALR(1), that is, no two decisions are ever open after right sentential forms whose prefixes have the same valid LR(0) items. SLR(1) grammars are LALR(1), and the Clr table of an LALR(1) grammar has no conflicts.", "quantifier": "every grammar, every Lalr table and every Clr table built from it (throughout: eof is not the name of a rule)", "why_tests_cant": "LALR(1) is a statement about all rightmost derivations of all grammars", "anchors": ["src/lalr.rs:proc_closures", "src/lalr.rs:update_closures", "src/lalr.rs:update_state", "src/lalr.rs:proc_actions", "src/clr.rs:proc_actions"]}
{"id": "C70", "title": "LL(1) grammars need no care", "statement": "If every nonterminal derives a terminal string and the grammar is LL(1) (the next terminal determines the production of the leftmost nonterminal), the tables of Slr, Clr and Lalr have no conflicts; the Slr and Clr parsers accept exactly the sentences, and so does the Lalr parser if no lookahead got lost. LL(1) grammars are SLR(1), LALR(1) and LR(1).", "quantifier": "every grammar, every table built from it, every input (throughout: eof is not the name of a rule; the start symbol is in no body; the start symbol has one alternative)", "why_tests_cant": "a statement about a class of grammars defined by all their derivations", "anchors": ["src/slr.rs:proc_actions", "src/clr.rs:proc_actions", "src/lalr.rs:proc_actions", "src/parser.rs:validate"]}
{"id": "C71", "title": "How many states, and when Lalr is Clr", "statement": "The Lalr table never has more states than the Slr or the Clr table of the grammar, and as many as the Slr table if the starting rule occurs in no body. It is the Clr table (states, their order, and all actions) exactly if it has as many states; this holds whenever no two Clr states differ in lookaheads only. In that case no lookahead gets lost: without conflicts the Lalr parser accepts exactly the sentences.", "quantifier": "every grammar and all tables built from it (throughout: eof is not the name of a rule; the start symbol has one alternative)", "why_tests_cant": "it relates three constructions for all grammars; tests compare sizes for some", "anchors": ["src/lalr.rs:proc_closures", "src/lalr.rs:update_closures", "src/clr.rs:proc_closures", "src/slr.rs:proc_closures"]}
{"id": "C72", "title": "Reductors are called once per node, children first, from left to right", "statement": "Whatever else the reductors do besides returning a value (printing, numbering, changing shared state): a successful `parse` has called them exactly once for every node of a parse tree of the input except its root, each after the reductors of its children and siblings from left to right, with the values these returned; nothing else is called. When `parse` reports an error, exactly the nodes of parse trees for the beginning of the input have been evaluated, in the same order. For a conflict-free table the parse tree is the one of the input: if its evaluation in that order succeeds, `parse` returns its value and leaves its effects, and if a reductor panics in it, `parse` panics.", "quantifier": "every grammar, every table built from it, every map of reductors with any side effects on any state, every initial state, every input (throughout: eof is not the name of a rule; the start symbol is in no body; where parse trees or positions of errors are concerned, the tokens have terminal types)", "why_tests_cant": "all reductors, all effects, all inputs: tests observe values, not the order of effects", "anchors": ["src/dfa.rs:reduce", "src/dfa.rs:travel", "src/dfa.rs:trace", "src/parser.rs:parse"]}
{"id": "C73", "title": "The command line program writes out.rs only for a program", "statement": "`wop FILE` returns Ok exactly when `Builder::from_str` does, and then `out.rs` holds the dumps of that builder; if it does not panic, it returns an error exactly when the tokens of the file are not a program; and `out.rs` is not touched unless the whole file is a program.", "quantifier": "every source and every sequence of tokens the lexer may make of it, every order in which hash sets are walked, debug and release builds", "why_tests_cant": "all sources, and all places where a syntax error can be", "anchors": ["wop/src/main.rs:main", "wop/src/main.rs:print_nested", "wop/src/builder.rs:process", "wop/src/builder.rs:from_str"]}
{"id": "C74", "title": "wop: the text of dump_grammar says what the source says", "statement": "For every source that `Builder::from_str` takes: the text that `dump_grammar` writes, byte by byte, read as Rust, imports exactly the paths imported, in order, and inserts into the map exactly one rule for every rule declared, with exactly the productions its alternatives describe, in order, and with the symbols of string literals that were given a token. The names must not contain the punctuation that ends them in the text.", "quantifier": "every source, every order in which the hash map of rules is walked", "why_tests_cant": "all sources: a test compares one text", "anchors": ["wop/src/builder.rs:dump_grammar", "wop/src/builder.rs:write_rule", "wop/src/builder.rs:from_str"]}
{"id": "C75", "title": "wop: the functions of dump_reductor", "statement": "For every source that `Builder::from_str` takes: the text that `dump_reductor` writes, byte by byte, read as Rust, declares functions of different names, each inserted into the map exactly once; the list inserted for a rule has one function for every production of the rule, in the order of the productions; and the function's body is a sequence of `let`s, one or more for every alias of the alternative and none for other names, followed by the code block of the alternative.", "quantifier": "every source, every type of items, every order in which the hash map of rules is walked", "why_tests_cant": "all sources: a test compares one text", "anchors": ["wop/src/builder.rs:dump_reductor", "wop/src/builder.rs:write_rule_reduction", "wop/src/builder.rs:from_str"]}
{"id": "C76", "title": "wop: the values of the lets in the text", "statement": "The `let`s of a generated function, as they stand in the text (`toks[i]`, `toks[i..j]`, `.clone()`, `.to_vec()`, `Some(…)`, `= None`), executed on the items of its production, do not panic and bind exactly the aliases of the alternative to the items they stand for: bare if the alias is bound in any case, in `Some` if it is bound here but not always, `None` otherwise. The alternatives are as in C58, and no alias is named `toks`.", "quantifier": "every source, every production of every rule, every sequence of items of that production's length", "why_tests_cant": "all sources, productions and items", "anchors": ["wop/src/builder.rs:write_rule_reduction", "wop/src/builder.rs:write", "wop/src/builder.rs:from_str"]}
{"id": "C77", "title": "wop: an alias has one type", "statement": "In all the functions that `dump_reductor` generates for the productions of one alternative, as they stand in the text, the variable of an alias has the same type (a copy of an item, a reference to it, a vector of items, or an `Option` of these), so that one code block can be compiled in all of them.", "quantifier": "every source that `from_str` takes, every production of every rule", "why_tests_cant": "all sources: whether the code compiles shows only when each source's output is compiled", "anchors": ["wop/src/builder.rs:write_rule_reduction", "wop/src/builder.rs:set_sub_aliases", "wop/src/builder.rs:from_str"]}
{"id": "C78", "title": "One token of lookahead: when `parse` asks its iterator for a token", "statement": "Whatever the token iterator and the reductors do besides (reading from a terminal, changing state they share): `parse` asks for the first token before anything else, asks for the next token as soon as it has taken one, and then calls the reductors of all nodes of the parse tree that end between the two. It never asks twice for one token and never again after `None`, also when the iterator would resume. When it reports an unexpected token, that token is the last one it has asked for. For a conflict-free table every parse tree that can be gone through in this way is followed, with its value and its effects. Iterators that never end are no obstacle: within a fixed number of rounds per token the parser has ended or read on. On the iterator over a list this is what C72 describes.", "quantifier": "every grammar, every table built from it, every iterator and every map of reductors with any effects on any shared state, finite or not (throughout: eof is not the name of a rule; the start symbol is in no body; where termination is concerned, every nonterminal derives a terminal string; where parse trees or positions of errors are concerned, the tokens have terminal types)", "why_tests_cant": "all iterators, also endless and interactive ones, and all effects: tests pass finite lists and look at the value", "anchors": ["src/dfa.rs:trace", "src/dfa.rs:shift", "src/dfa.rs:accept", "src/dfa.rs:Dfa", "src/parser.rs:parse"]}
{"id": "C79", "title": "Exactly which grammars lrp can compute FIRST and FOLLOW for", "statement": "Take the graph whose edges go from each nonterminal to the other nonterminals that start one of its bodies, and the graph from each nonterminal to the other nonterminals one of whose bodies it ends. Folding a graph means joining vertices two edges apart and dropping loops. For grammars without empty productions, `Tabler::new` returns in debug builds exactly when folding both graphs often enough leaves no edge; it panics exactly when the folding stops changing with edges left over, and runs forever exactly when it never stops changing. In release builds left-over edges are no panic: they are then added to the second graph. A cycle of three nonterminals makes it run forever, a cycle of four or of two does no harm, three nonterminals starting each other's bodies make it panic.", "quantifier": "every grammar without empty productions, debug and release builds (throughout: eof is not the name of a rule)", "why_tests_cant": "all grammars, and running forever cannot be observed in a test", "anchors": ["src/tabler.rs:Tabler::new", "src/tabler.rs:gen_first", "src/tabler.rs:proc_first", "src/tabler.rs:gen_follow", "src/tabler.rs:proc_follow", "src/lib.rs:transitive"]}
{"id": "C80", "title": "The printed trace of a run is a rightmost derivation, backwards", "statement": "`print_proc_dfa` of the demonstration program does not change the run it prints: some table with the result r is printed exactly if `start` gives r. In every row, the number counts the rows, the stack is a path of the automaton, the buffer is a rest of the input and the end marker, and the action is what the table has at the last state and the next symbol; the symbols of the stack and the rest of the input are a rightmost sentential form, from which the reductions of the rows above lead to the input. All rows but the last are shifts and reductions, the last one shows why the run ended. The table of a successful run, read from bottom to top, is a rightmost derivation of the input from the start symbol, and has one row for each token, one for each reduction, and one more.", "quantifier": "every grammar, every Slr, Clr or Lalr table built from it, every input, every reductor map, every way to write states and symbols (throughout: where parse trees or positions of errors are concerned, the tokens have terminal types)", "why_tests_cant": "all runs of all tables: a test compares one printed table with a text", "anchors": ["src/main.rs:print_proc_dfa", "src/dfa.rs:trace", "src/dfa.rs:travel", "src/dfa.rs:stack_fmt"]}
{"id": "C81", "title": "The demonstration program decides nested brackets, and never ends", "statement": "The program builds its parser and prints its tables without a panic. It answers every line that consists of `( ) [ ] { } c d` with white space around them, and the answer is `ok` exactly if the line is one pair of brackets in another one, and so on down to an empty pair. Any other line makes it panic. It never returns: it goes on for ever if all lines are of these characters, and panics at the first other one.", "quantifier": "all lines, all sequences of lines, debug and release builds", "why_tests_cant": "all words over the brackets, and a loop without end", "anchors": ["src/main.rs:main", "src/main.rs:print_proc_dfa", "src/main.rs:print_states_table"]}
{"id": "C82", "title": "The texts of items, states, actions and errors say which ones they are", "statement": "Printed with `{}` or `{:?}`, an item of a table shows its rule, its body with the point at its place, and its lookaheads; two items of the tables of a grammar with the same text are the same, but for the number of the alternative. If no rule has the same alternative twice, no two states of a table print alike. Two cells, and two errors, that print alike are equal: nothing is lost in an error message. The symbols must be printed so that it is clear where a symbol ends, as numbers, words without blanks, commas, dots and brackets, and quoted strings are.", "quantifier": "every grammar, every Slr, Clr or Lalr table built from it, every action and error, every legible way to print symbols", "why_tests_cant": "a test compares one text; that no two different things share a text is a statement about all pairs", "anchors": ["src/pos.rs:Position::fmt", "src/dfa.rs:Action", "src/dfa.rs:Error::fmt"]}
{"id": "C83", "title": "wop: no character is cut in two", "statement": "For every source, also with characters outside ASCII in literals, comments, code or names: the text of every token is a non-empty string of whole characters, and `print_nested` prints every value the parser can make of tokens of the source, at every depth, without panicking on a slice.", "quantifier": "every UTF-8 source, every set of word characters outside ASCII, every tree the parser can build, every way strings are quoted", "why_tests_cant": "all sources, with characters of any length at any place, and all trees", "anchors": ["wop/src/lib.rs:lexer", "wop/src/main.rs:print_nested", "src/lib.rs:Span::from_source"]}
{"id": "C84", "title": "wop: the file out.rs", "statement": "`wop FILE` writes `out.rs` and returns Ok exactly for the sources that are programs without repeated names or misplaced code blocks; writes it and returns an error exactly if the source is no program, and the longest beginning of it that is a program followed by the first token of a declaration has no repeated names or misplaced code blocks; and otherwise panics before it touches the file. Read as Rust, the file declares the functions `grammar` and `reduct_map`, whose blocks import the paths imported, insert one rule for every rule declared, with the productions its alternatives describe, and one function for every production, with the `let`s for its aliases and its code block. For the contents, the names must not contain the punctuation that ends them in the text.", "quantifier": "every UTF-8 source, every order in which hash maps and hash sets are walked, debug and release builds", "why_tests_cant": "all sources, and all places where a syntax error can be", "anchors": ["wop/src/main.rs:main", "wop/src/builder.rs:dump_grammar", "wop/src/builder.rs:dump_reductor"]}
{"id": "C85", "title": "Starting a Dfa again changes nothing", "statement": "When the run of a `Dfa` made by `Parser::dfa` has ended, with success or with an error, calling `Dfa::start` once more returns the same result as before and leaves the `Dfa` as it is: no token is read and neither stack is touched. In particular an error does not disappear by asking again.", "quantifier": "all grammars with a built Slr, Clr or Lalr table, all inputs of terminals, all reductor maps, all moments of a run (throughout: eof is not the name of a rule)", "why_tests_cant": "Whether a failed lookup leaves partly popped stacks or a set flag behind depends on the kind of error and on where in the table it is found; tests start each Dfa once.", "anchors": ["src/dfa.rs:120-160", "src/dfa.rs:171-185", "src/dfa.rs:190-215", "src/parser.rs:26-47"]}
{"id": "C86", "title": "Columns of nonterminals hold gotos only", "statement": "In the action table of every Slr, Clr and Lalr parser a cell under a nonterminal holds a `Goto`, never a `Reduce`, `Acc` or `Conflict`; gotos stand under nonterminals only and shifts under terminals only.", "quantifier": "all grammars, all three constructions, all states, all symbols (throughout: eof is not the name of a rule)", "why_tests_cant": "A wrong entry appears only when a lookahead set contains a nonterminal, which needs a particular shape of grammar; tests compare a few tables.", "anchors": ["src/slr.rs:84-113", "src/slr.rs:131-149", "src/clr.rs:49-70", "src/clr.rs:124-160", "src/lalr.rs:74-94", "src/lalr.rs:235-264", "src/tabler.rs:42-178"]}
{"id": "C87", "title": "The three parsers agree", "statement": "If parsers of the same grammar made by Slr, Clr or Lalr (with lookaheads passed on) have no conflicts, `parse` returns the same result with each of them on every input of terminals: the same value, or an error of the same kind about the same token. Only the lists of expected tokens may differ. `IncompleteExec` comes only from a token of the type of the end marker that stands after a sentence.", "quantifier": "all grammars whose start symbol has one alternative, whose nonterminals all derive terminal strings and whose bodies hold neither the start symbol nor the end marker, all inputs of terminals, all reductors that give every tree a value, debug and release builds", "why_tests_cant": "The tests run each builder on its own samples; whether Slr and Lalr, which reduce under lookaheads that Clr knows to be wrong, end with the same answer on every wrong input is a statement about all inputs.", "anchors": ["src/parser.rs:26-47", "src/dfa.rs:120-160", "src/slr.rs:84-113", "src/clr.rs:49-70", "src/lalr.rs:74-94"]}
{"id": "C88", "title": "Taking alternatives away introduces no conflicts", "statement": "If the Clr (Slr) table of a grammar has no conflicts, neither has the Clr (Slr) table of the grammar without some of its productions. (For Lalr this is not so: taking an alternative away can make two states equal that were not, and merging them can bring a conflict.)", "quantifier": "all pairs of grammars of which one has fewer productions than the other and all whose nonterminals derive terminal strings, the start symbol of the larger one having one alternative (for Slr also: all nonterminals reachable, and in release builds the graphs of C79 folding away) (throughout: eof is not the name of a rule)", "why_tests_cant": "A statement about all grammars and all ways of making them smaller.", "anchors": ["src/clr.rs:49-70", "src/clr.rs:124-160", "src/slr.rs:84-113", "src/slr.rs:131-149", "src/lalr.rs:96-140"]}
{"id": "C89", "title": "Rules that cannot be used change nothing in a Clr or Lalr parser", "statement": "Rules that cannot be reached from the start symbol do not matter for a Clr or Lalr parser: with them and without them the table has the same states in the same order, the same kernels, the same actions and the same conflicts, and every parse with the same reductors gives the same result. (For Slr they do matter: they add to FOLLOW sets, and can bring conflicts.)", "quantifier": "all pairs of grammars with the same start symbol and eof and the same productions for reachable nonterminals, for both of which the constructor returns; debug and release builds, also one of each; all inputs and reductors", "why_tests_cant": "A statement about all grammars with all additional rules.", "anchors": ["src/clr.rs:49-104", "src/clr.rs:107-160", "src/lalr.rs:57-264", "src/tabler.rs:40-68", "src/slr.rs:84-113"]}
{"id": "C90", "title": "Conflicts in a table are not idle: some input meets one", "statement": "For a grammar in which every rule derives a string of terminals and whose start rule occurs in no body, if the table of an Slr or Clr parser has a conflict under a terminal then there is an input of terminals on which parse returns Err(Conflict). For Clr in every build, and for Slr in debug builds, the table is therefore free of conflicts exactly if no input of terminals is answered with Conflict; a grammar is LR(1) exactly if its Clr parser answers no input with Conflict. The same holds for Lalr when lookaheads have been passed on along all edges and no state was mistaken for another one's successor.", "quantifier": "all grammars, all tables, all conflict cells; existence of an input among all token lists (throughout: eof is not the name of a rule; the start symbol has one alternative)", "why_tests_cant": "The absence of Conflict on all inputs is a statement about infinitely many inputs, and whether a conflict that the table prints can be reached depends on the grammar as a whole; a test can only show one input for one grammar.", "anchors": ["src/dfa.rs:141-212", "src/clr.rs:124-160", "src/slr.rs:84-113", "src/lalr.rs:74-94", "src/lalr.rs:235-264", "src/tabler.rs:100-178"]}
{"id": "C91", "title": "wop: from which programs a parser can be made", "statement": "Let from_str accept a source text and let dump_grammar write the grammar, with different symbols for different rules. The generated parser can be made (by Slr, Clr or Lalr) exactly if the start is a rule of the program, no alternative of a rule can be left out altogether (all of its items are marked with ? or are groups with an alternative that can be left out), and repeatedly joining the edges of the graph of what alternatives can begin with, and then of the graph of what follows, comes to a standstill. In debug builds the start rule must also have one alternative in which nothing is marked with ? and no group has alternatives, and no edges may be left at the standstill. If an alternative can be left out altogether, from_str still accepts the source and every builder panics in every build.", "quantifier": "all source texts, all programs, all hash orders, all choices of the start and end symbols, all three builders, both builds", "why_tests_cant": "Whether the generated code panics or hangs when it starts depends on all expansions of all alternatives, of which there are exponentially many in the length of the source; wop reports none of it, so the set of good sources can only be known by an argument over all of them.", "anchors": ["wop/src/builder.rs:get_production", "wop/src/builder.rs:get_from_single_production", "wop/src/builder.rs:from_str", "wop/src/builder.rs:dump_grammar", "wop/src/builder.rs:write_rule", "src/parser.rs:validate", "src/tabler.rs:Tabler::new", "src/tabler.rs:gen_first", "src/tabler.rs:proc_first", "src/tabler.rs:gen_follow", "src/tabler.rs:proc_follow", "src/lib.rs:transitive", "src/tabler.rs:first_step", "src/grammar.rs:Grammar::new", "src/grammar.rs:Grammar::is_terminal", "src/grammar.rs:Grammar::symbols"]}
{"id": "C92", "title": "with_table does not rebuild a filled table: the parser stays the old one", "statement": "Let a table be taken from a parser made by Slr, Clr or Lalr. Whatever Slr::with_table, Clr::with_table or Lalr::with_table then returns for that table parses every input exactly as the parser the table was taken from: same values, errors and panics. Slr::with_table and Clr::with_table always return; used with a table of their own kind they append the start state and all rows of actions a second time and change nothing else. Lalr::with_table panics on every table of a Clr parser. In particular Clr::with_table on the table of an Slr parser does not give the Clr parser.", "quantifier": "all grammars, all pairs of methods, both builds, all inputs, all maps of reductors", "why_tests_cant": "That no input can tell the two parsers apart is a statement about all token lists and all grammars, and the call gives no sign that the rows it appends are never used; a test of one grammar on which both methods agree would not notice.", "anchors": ["src/slr.rs:16-20", "src/slr.rs:39-43", "src/slr.rs:62-78", "src/slr.rs:116-148", "src/clr.rs:16-20", "src/clr.rs:41-66", "src/clr.rs:90-118", "src/lalr.rs:26-30", "src/lalr.rs:47-94", "src/lalr.rs:117-264", "src/parser.rs:12-50", "src/parser.rs:96-106"]}
{"id": "C93", "title": "How high the stack of a run gets", "statement": "At every moment of a run on terminals the state stack is one higher than the item stack, and there are no more items than tokens that have been read. If no rule that can be reached from the start derives a form that contains the rule itself with something to the left of it (recursion is at the left end only), the item stack never gets higher than (k+1)·m, k the number of declarations and m the length of the longest body, whatever the input. If there is such a rule, the table has no conflicts (for Lalr: and no lookahead got lost) and every rule derives something, there are for every n accepted inputs on which the stack gets higher than n. So left recursion is parsed in constant memory, and nothing else is.", "quantifier": "all grammars, all three methods, both builds, with or without conflicts (the last part: without), all inputs of terminals, all maps of reductors, all moments (throughout: eof is not the name of a rule; the start symbol is in no body; the start symbol has one alternative)", "why_tests_cant": "The bound is about inputs of all lengths, and the last part about the existence of inputs for every grammar; a test measures one stack on one input.", "anchors": ["src/dfa.rs:65-79", "src/dfa.rs:118-126", "src/dfa.rs:145-166", "src/dfa.rs:187-212", "src/slr.rs:131-148", "src/clr.rs:49-66", "src/lalr.rs:74-94"]}
{"id": "C94", "title": "Any rule can be made the start by wrapping it", "statement": "Let S' be a name a grammar does not use and add one rule S' -> S. Then a parser with start S' can be made in debug builds exactly if no production is empty and the foldings of C79 leave no edge for the old grammar, however many alternatives S has and wherever S occurs; in release builds the same suffices. Whatever validate accepts is a sentence derived from S in the old grammar; without conflicts (Lalr: with lookaheads passed on) it accepts exactly those; and parse returns the value of a parse tree with root S of the old grammar, calling no reductor of the new rule. The Clr table of the wrapped grammar has no conflicts exactly if the old grammar is LR(1) and S does not derive itself. So if some table that a debug build makes of a grammar (Lalr: with lookaheads passed on) has no conflicts, every rule that can be reached can be wrapped, with a Clr table without conflicts. Without wrapping none of this holds: for S -> S x | y | z S w, release builds make an Slr parser without conflicts that accepts `z y` (no sentence), and a Clr parser without conflicts that rejects `y`.", "quantifier": "all grammars, all start rules and unused names, all three builders, all token sequences, all reductors; for the claim on conflicts: all rules productive, eof in no body, and for the conclusion from it the old start in no body (throughout: eof is not the name of a rule)", "why_tests_cant": "quantifies over all grammars and all inputs, including grammars debug builds refuse without wrapping; that a table has no conflicts suggests, wrongly, that a recursive start rule is fine", "anchors": ["src/grammar.rs:63-95", "src/tabler.rs:22-120", "src/slr.rs:131-148", "src/clr.rs:49-66", "src/lalr.rs:74-94", "src/parser.rs:validate", "src/parser.rs:parse", "src/dfa.rs:Dfa"]}
{"id": "C95", "title": "The names of a program cannot garble the Rust that is written", "statement": "In every program the name of an alias is one identifier (it consists of letters, digits and underscores and characters outside of ASCII, and is not empty), and so is the name of a rule that has no colon. If no comment stands inside of a path (paths have no slash), then no import, rule name, type, symbol or target of a token alias contains a comma, semicolon, bracket, brace, `>` or an open string that Rust would read as anything but part of the name; so dump_grammar's text is read back as exactly the rules of the program without any assumption on names, and all of out.rs is, if in addition no rule is named by a path, no alias is called `mut`, and the code blocks have closed strings and balanced braces.", "quantifier": "all sources (strings), whatever characters outside of ASCII count as word characters and however long error tokens are, all programs they can be read as, all orders in which hash maps are walked, both builds", "why_tests_cant": "it quantifies over all names and sources; a test tries some names, and the separators a name may not contain are spread over two generators and two nested formats", "anchors": ["wop/src/lib.rs:41-127", "wop/src/builder.rs:dump_grammar", "wop/src/builder.rs:dump_reductor", "wop/src/main.rs:main"]}
{"id": "C96", "title": "An alternative between fresh brackets brings no conflicts", "statement": "Give one rule A (not the start) of a grammar a further alternative `o B c`, where o and c are symbols the grammar does not use and B is a rule that can be reached. If some table of the grammar has no conflicts (Slr, Clr, or Lalr with its lookaheads passed on), then in debug builds Clr can make a table of the larger grammar, it has no conflicts, and its parser accepts exactly the sentences of the larger grammar. If it is the Slr table that has no conflicts and every rule can be reached, the same holds of the Slr table of the larger grammar. Of Lalr this is false, and it is false if a bracket is in use or B cannot be reached. A single unused symbol as a further alternative likewise keeps a grammar LR(1).", "quantifier": "all grammars (no empty production, all rules productive, start in no body), all rules A and B, all unused symbols, all token sequences (throughout: eof is not the name of a rule)", "why_tests_cant": "it says of every conflict-free grammar what an extension does to the whole table; a test extends some grammars", "anchors": ["src/grammar.rs:63-95", "src/clr.rs:49-66", "src/slr.rs:131-148", "src/lalr.rs:74-94", "src/tabler.rs:207-212", "src/parser.rs:validate"]}
{"id": "C97", "title": "Debug and release builds make the same parser", "statement": "The debug assertions of the constructors stop a construction or change nothing: whatever parser a debug build makes, a release build makes the very same one (grammar, FIRST, FOLLOW, states, kernels, actions). Given that the release build returns a parser, the debug build returns it too if and only if the start symbol has exactly one alternative and all FIRST and FOLLOW sets hold terminals only; otherwise it panics in Grammar::new (several alternatives) or in Tabler::new (a nonterminal in a set), never later. reduce_equals of a built table gives the same in both builds.", "quantifier": "all grammars, start symbols and eof, for which the constructor returns in the build named; Slr, Clr and Lalr", "why_tests_cant": "Tests run in one build at a time and on chosen grammars; that an assertion has no effect on any table cannot be seen from samples.", "anchors": ["src/grammar.rs:62-86", "src/tabler.rs:103-121", "src/tabler.rs:243-256", "src/slr.rs:62-78", "src/clr.rs:90-104", "src/lalr.rs:117-147", "src/lalr.rs:184-218"]}
{"id": "C98", "title": "Hash iteration order does not change the generated parser", "statement": "wop keeps alias names in hash sets and rules in a hash map, whose iteration order changes from run to run. Reading the same source twice gives the same verdict: the same error, the same panic, or both times a builder with the same imports, token aliases and rule names. And whatever the order in which the sets were walked and the rules are written, the generated grammar is the same map (so Slr, Clr and Lalr make the same tables of it) and the generated reductors are the same functions: the lines of a reductor may come in another order, but every variable has the same value, and so has the result on every input.", "quantifier": "all sources and their tokens, all iteration orders (any permutation for every set and for the map of rules); for the grammar and the reductors: different rule names are different symbols", "why_tests_cant": "The iteration order is random and cannot be chosen in a test; a rerun that agrees says nothing about the other orders.", "anchors": ["wop/src/builder.rs:130-165", "wop/src/builder.rs:258-292", "wop/src/builder.rs:310-390", "wop/src/builder.rs:391-403"]}
{"id": "C99", "title": "A parse that is not over after linearly many rounds never ends", "statement": "Whatever the table, with conflicts or without: if `parse` answers on an input of n terminals, it does so within 2·n·(k+1)+1 rounds of the loop of `Dfa::trace`, k the number of declared nonterminals. So, if no reductor panics, an observer that counts more rounds than that knows that `parse` is caught in a loop. Such a loop needs a symbol that becomes itself by productions of one symbol: with every other grammar `parse` ends on every input of terminals within that many rounds, whatever the method and the conflicts, and `validate` returns.", "quantifier": "every grammar, every Slr, Clr or Lalr table made of it, every map of reductors, every input of terminals (throughout: eof is not the name of a rule)", "why_tests_cant": "no test can tell a slow parse from one that goes on for ever, nor show that none goes on for ever", "anchors": ["src/dfa.rs:120-128", "src/dfa.rs:147-212", "src/parser.rs:73-94"]}
{"id": "C100", "title": "The order of the alternatives of a rule does not matter", "statement": "Write the alternatives of every rule, and the rules themselves, in another order. A table can be made of the one grammar if and only if it can be made of the other, by the same method in the same build. The Clr tables of both have conflicts or neither has; likewise the Slr tables, and the Lalr tables if lookaheads are passed on and no state is mistaken for another (see C69). And if the reductors are moved along with their alternatives, two parsers of the two grammars without conflicts return the same result on every input of terminals: the same value, or the same wrong token, or the same other error; only the lists of expected tokens may differ.", "quantifier": "all grammars whose start rule has one alternative, all ways to reorder them, eof not the name of a rule; for conflicts and results: all rules productive (Slr: and reachable); for results: eof and the start symbol in no body, tables by any of the three methods (Lalr: with lookaheads passed on), every input on which the reductors give every parse tree of a part of it a value", "why_tests_cant": "There are as many orders as permutations of the alternatives, for every grammar; the number of an alternative goes into the order of positions, of states and of kernels, so nothing short of a proof shows that it has no effect.", "anchors": ["src/grammar.rs:23-50", "src/pos.rs:8-17", "src/slr.rs:62-150", "src/clr.rs:49-160", "src/lalr.rs:74-265", "src/dfa.rs:190-212"]}
{"id": "C101", "title": "Alternatives in another order are only renumbered in the table", "statement": "Write the alternatives of every rule, and the rules themselves, in another order. If no rule has the same alternative twice, the table made of the new grammar is the old table, state by state, position by position, row by row and cell by cell, with the numbers of the alternatives exchanged and nothing else changed; FIRST and FOLLOW are the same. This holds of Slr, Clr and Lalr, with conflicts or without. If no table can be made of the one grammar, none can be made of the other, and for the same reason: the same panic, or the same endless loop. And if the reductors are moved along with their alternatives, `parse` does the same on every input: it returns the same value, or the same error with the same list of expected tokens (a reported conflict names the new numbers), or it panics in the same way, or it loops for ever in both.", "quantifier": "all grammars whose start rule has one alternative and in which no rule has the same alternative twice, all ways to reorder them, all three methods, debug and release builds, all maps of reductors, all inputs (also of tokens that are no terminals)", "why_tests_cant": "There are as many orders as permutations of the alternatives, for every grammar. The number of an alternative is part of the position and so decides, with the other fields, the order of positions, of kernels and of states.", "anchors": ["src/grammar.rs:23-50", "src/pos.rs:8-17", "src/tabler.rs:21-171", "src/slr.rs:62-150", "src/clr.rs:49-160", "src/lalr.rs:74-265", "src/dfa.rs:120-212"]}
{"id": "C102", "title": "Of the names of symbols only their order matters", "statement": "Give the symbols of a grammar other names, of any other type, that are ordered as the old ones were. The table made of the new grammar is the old table, state by state, position by position, row by row and cell by cell, with the symbols renamed and nothing else changed; so are FIRST and FOLLOW. This holds of Slr, Clr and Lalr, with conflicts or without, also where a Lalr table depends on the order of the symbols (C65). If no table can be made of the one grammar, none can be made of the other, and for the same reason. And with reductors that do not mind the names `parse` does the same on every input: it returns the same value, or the same error up to the names, or it panics in the same way, or it loops for ever in both.", "quantifier": "all grammars, all types of symbols, all renamings that keep the order, all three methods, debug and release builds, all maps of reductors, all inputs (also of tokens that are no terminals)", "why_tests_cant": "All grammars and all renamings; every set and map of lrp is ordered by the names, so a step that depended on more of a name than its order would show only with certain names.", "anchors": ["src/lib.rs:22-60", "src/grammar.rs:58-105", "src/pos.rs:8-17", "src/tabler.rs:21-205", "src/slr.rs:62-150", "src/clr.rs:49-160", "src/lalr.rs:74-265", "src/dfa.rs:120-212"]}
{"id": "C103", "title": "Calling reduce_equals until nothing changes", "statement": "One call of `reduce_equals` can leave equal rows behind (C35). Calling it again and again is safe and comes to an end: no call panics, fewer calls than there are rows lead to a table that no further call changes, and in that table no two rows are equal. A call changes nothing exactly if no two rows are equal, and a call after which there are as many rows as before has changed nothing at all, so counting the rows tells when to stop. However often it is called, FIRST, FOLLOW, states and kernels stay as they were, the table has conflicts exactly if it had, and every parse ends as before: the same value, the same error (a conflict as a conflict), the same panic, or never.", "quantifier": "all tables whose targets are rows of the table, in particular all built tables of all grammars and methods, any number of calls, all inputs and maps of reductors, debug and release builds", "why_tests_cant": "The number of calls needed grows with the grammar, and the claim is about all of them; an example shows one table and one number of calls.", "anchors": ["src/tabler.rs:214-263", "src/parser.rs:137-139"]}
{"id": "C104", "title": "Values do not steer a parse, and reductors see only values of the right kind", "statement": "Which shifts and reductions a parse makes depends on the types of the tokens only. Given two inputs of the same types, a relation between their values for each symbol that holds of the tokens, and two maps of reductors that take related items of a body to values related at the rule, the two parses end alike: with values related at the last symbol of an alternative of the start rule, with the same error, with the same panic, or never. So: (1) if every token has a value of the kind its type promises and every reductor turns values of the promised kinds into one of the kind promised for its rule, then no reductor ever meets a value of another kind: `parse` does not panic, also if the reductors panic on all other values, it returns a value of the kind promised for the last symbol of an alternative of the start rule, and it succeeds, fails and loops exactly where `validate` does on the types; (2) translating the values of the tokens first and computing with translated reductors gives the translation of the result.", "quantifier": "all grammars, all three methods, with or without conflicts, all types of values, all relations, all maps of reductors, all inputs of terminals (throughout: eof is not the name of a rule)", "why_tests_cant": "All value types, all relations between them and all maps of reductors; a test fixes one type of values and one map.", "anchors": ["src/dfa.rs:120-212", "src/parser.rs:26-94"]}
{"id": "C105", "title": "What a parse has not read does not matter", "statement": "If `parse` reports an error or panics, its run has come to the end of the input, or it has stopped in front of a token, the tokens before it being consumed; and then it ends in the same way on every input that begins with the same tokens up to that one, whatever comes after it. For built tables: if the unexpected token reported is not the end marker, it is a token of the input, and the same error with the same list of expected tokens is reported on every input that begins with the same tokens up to it; in particular an input that is wrong at one of its tokens stays wrong in the same way however it goes on.", "quantifier": "all tables (the last part: built from any grammar by any of the three methods), all maps of reductors, all inputs (the last part: of terminals), all continuations (the last part: eof is not the name of a rule)", "why_tests_cant": "All continuations of all inputs.", "anchors": ["src/dfa.rs:120-212", "src/parser.rs:73-88"]}
{"id": "C106", "title": "Ambiguity shows", "statement": "If `parse` returns Ok, the input has exactly one parse tree from the start rule; an input with two parse trees is answered with `Conflict`. This holds whatever conflicts the table has. If at some rule that can be reached some tokens have two parse trees, the table therefore has conflicts and there is a sentence that is answered with `Conflict`. In particular these mistakes always show: the same alternative written twice; a rule that derives itself alone; a rule that derives something that begins and ends with itself (E -> E + E); a rule with a left recursive and a right recursive alternative; a dangling else (A -> b A and A -> b A c). (For Lalr this needs that no lookahead got lost: there is an ambiguous grammar whose Lalr table has no conflicts.)", "quantifier": "all grammars, Slr and Clr (Lalr if lookaheads are passed on), tables with or without conflicts, all inputs and trees; the mistakes: all rules that can be reached, in grammars in which every rule derives a string of terminals (throughout: eof is not the name of a rule; the start symbol is in no body and has one alternative)", "why_tests_cant": "All grammars, and all parse trees of an input: that there is no second tree cannot be seen by running the parser.", "anchors": ["src/dfa.rs:120-212", "src/slr.rs:proc_actions", "src/clr.rs:proc_actions", "src/lalr.rs:proc_actions"]}
{"id": "C107", "title": "Of the alternatives of the start rule only the first counts", "statement": "What `parse` accepts is derived by the first alternative of the start rule, and what this alternative derives is accepted or answered with `Conflict`: a parser without conflicts accepts exactly what the first alternative of the start rule derives. Debug builds refuse a start rule with several alternatives; release builds take it, and sentences that need another alternative of it are rejected, silently.", "quantifier": "all grammars with one or more alternatives of the start rule, Slr and Clr (and for what is accepted: Lalr if lookaheads are passed on), all inputs (throughout: eof is not the name of a rule; the start symbol is in no body)", "why_tests_cant": "All grammars and inputs; the tests are debug builds, in which such grammars panic.", "anchors": ["src/grammar.rs:63-86", "src/slr.rs:proc_actions", "src/clr.rs:proc_actions", "src/lalr.rs:proc_actions"]}
{"id": "C108", "title": "After an unexpected token the input can be mended in place", "statement": "`Dfa` is public and so are its fields, so the rest of the input can be replaced between two calls of `start`. (1) With any table: called at any moment of a run, `start` ends exactly as the whole run does (same result, same items, same panic, or not at all), and right after a token was taken the rest can be replaced by any other, as if it had been there from the beginning. (2) With a Clr table: after `UnexpectedToken(x, _)`, be `x` a token or the end marker, replacing the rest of the input (which begins with `x`) and calling `start` again gives exactly what parsing the tokens taken so far followed by the new rest gives; so input may be mended, and given in pieces. If the new rest begins with one of the terminals that the error lists, a further unexpected token comes after it: mending by what the list offers makes headway. (3) With every method: if such a second call succeeds, the tokens taken and the new rest are a sentence. With Slr and Lalr, (2) is false, also without conflicts: the wrong token may have caused reductions, after which a good rest is rejected.", "quantifier": "(1) all tables, reductors, inputs and moments; (2) all grammars with one start alternative whose rules all derive something, all inputs and all new rests; (3) all grammars, methods, inputs, moments and new rests (throughout: the start symbol is in no body, eof is not a rule, the first input consists of terminals)", "why_tests_cant": "Ranges over all grammars, all wrong inputs and all replacements; no test calls `start` twice on one `Dfa`.", "anchors": ["src/dfa.rs:66-79", "src/dfa.rs:start", "src/dfa.rs:trace", "src/dfa.rs:travel"]}
{"id": "C109", "title": "A parser without conflicts is never lost", "statement": "At every moment of a run before its end, after an `UnexpectedToken` too, whatever the parser has been given and however many reductions a wrong token has caused, there is a rest of the input with which `start` goes on to succeed, and the tokens taken followed by this rest are a sentence. The list in an `UnexpectedToken` of any table contains the next symbol of every rest with which the parser would go on to accept; the terminals in the list of a Clr table without conflicts are exactly these symbols. So an editor or a prompt can always lead the user to a complete input from where the parser stands.", "quantifier": "all grammars whose rules all derive something, all three methods without conflicts (Lalr: if lookaheads are passed on), all inputs of terminals, all moments of the run (throughout: the start symbol is in no body, eof is not a rule, no reductor panics)", "why_tests_cant": "Ranges over all grammars, inputs and moments, and asks for the existence of a continuation.", "anchors": ["src/dfa.rs:66-79", "src/dfa.rs:trace", "src/dfa.rs:travel", "src/slr.rs:proc_actions", "src/clr.rs:proc_actions", "src/lalr.rs:proc_actions"]}
{"id": "C110", "title": "A parser for one text gives a parser for a sequence of texts", "statement": "Give a grammar with start rule `S` the rules `S' -> L` and `L -> S m | L S m`, with names not used in it. (1) In debug builds a table of it can be made exactly if no production is empty and folding leaves nothing of the two graphs of C79. (2) If any table of the grammar has no conflicts, the Clr table of the new grammar has none; if its Slr table has none and all rules can be reached, the Slr and Lalr tables of the new grammar have none; if its Lalr table has passed its lookaheads on and has none, a Lalr table of the new grammar has none in which no state can be mistaken for a successor of another one (C69). (3) If the two tables, made by whichever methods, have no conflicts, the new parser accepts exactly the texts that consist of one piece or more, each accepted by the old parser and followed by one mark `m`. (4) The value is made from left to right, by the reductor of `L -> S m` for the first piece and that of `L -> L S m` for each further piece, from the values of parse trees of the pieces. The mark has to be used nowhere else.", "quantifier": "all grammars, in (2) those whose rules all derive something, all new names, all inputs, all reductors, in (3) all methods of both tables (Lalr: if lookaheads are passed on; the start symbol is in no body, eof is not a rule)", "why_tests_cant": "Ranges over all grammars; relates the tables of two grammars and the outcomes of their parsers on all inputs.", "anchors": ["src/clr.rs:new", "src/grammar.rs:new", "src/clr.rs:proc_actions", "src/slr.rs:proc_actions", "src/lalr.rs:proc_actions", "src/dfa.rs:trace", "src/parser.rs:parse", "src/parser.rs:validate"]}
{"id": "C111", "title": "One language can be embedded in another between brackets of its own", "statement": "Take two grammars that do not use each other's rule names and put them together, with `A -> o R c` as a further alternative of a rule `A` of the outer grammar (not the start), where `R` is the start of the inner one and the brackets `o` and `c` are different and used in neither; they may share other tokens. (1) In debug builds a table can be made exactly if one of the outer grammar can be made, no production of the inner one is empty and folding leaves nothing of its two graphs (C79). (2) If some table of each grammar has no conflicts, the Clr table of the whole has none; if the Slr tables of both have none and in both all rules can be reached, the Slr and Lalr tables of the whole have none; if lookaheads are passed on in the Lalr tables of both and these have none, a Lalr table of the whole has none in which no state can be mistaken for a successor of another one (C69). (3) If the tables, made by whichever methods, have no conflicts, the parser of the whole accepts exactly the texts that come from one accepted by the parser of the outer grammar with `A -> k` (for any `k` not used in it; `k` may be `o`) by putting `o v c` for each `k`, with texts `v` accepted by the inner parser. The brackets have to be new.", "quantifier": "all pairs of grammars with separate rule names, in (2) those whose rules all derive something, all rules `A`, all brackets, all inputs, in (3) all methods of the three tables (Lalr: if lookaheads are passed on; the start symbols are in no body; eof is used in no rule)", "why_tests_cant": "Ranges over all pairs of grammars; relates the tables of three grammars and the outcomes of their parsers on all inputs.", "anchors": ["src/clr.rs:new", "src/grammar.rs:new", "src/clr.rs:proc_actions", "src/dfa.rs:trace", "src/parser.rs:validate"]}
{"id": "C112", "title": "Two languages whose texts begin with different tokens can be joined", "statement": "Take two grammars that do not use each other's rule names, with start rules `S` and `R`, and put them together with the new rules `Z -> C` and `C -> S | R`, `Z` being the start. (1) In debug builds a table can be made exactly if in both grammars no production is empty and folding leaves nothing of the two graphs of C79. (2) If some table of each grammar has no conflicts and no token begins both a text accepted by the first parser and one accepted by the second, the Clr table of the whole has no conflicts; if the Slr tables of both have none and in both all rules can be reached, the Slr and Lalr tables of the whole have none; if the Lalr tables of both have passed their lookaheads on and have none, a Lalr table of the whole has none in which no state can be mistaken for a successor of another one (C69). (3) If the three tables, made by whichever methods, have no conflicts, the parser of the whole accepts exactly the texts that one of the two parsers accepts. (4) The value is what the reductor of `C -> S` makes of the value of a parse tree of the first grammar, or that of `C -> R` of one of the second, for the tokens given. If the texts begin alike there can be conflicts.", "quantifier": "all pairs of grammars with separate rule names, in (2) those whose rules all derive something, all new names, all inputs, all reductors, in (3) all methods of the three tables (Lalr: if lookaheads are passed on; the start symbols are in no body; eof is used in no rule)", "why_tests_cant": "Ranges over all pairs of grammars; relates the tables of three grammars and the outcomes of their parsers on all inputs.", "anchors": ["src/clr.rs:new", "src/slr.rs:new", "src/grammar.rs:new", "src/clr.rs:proc_actions", "src/slr.rs:proc_actions", "src/dfa.rs:trace", "src/parser.rs:parse", "src/parser.rs:validate"]}
{"id": "C113", "title": "A token can be split into several", "statement": "Take a grammar with a token x (for instance a number) and turn x into a rule x → y1 | y2 | … with new, pairwise different tokens y1, y2, … that the grammar does not use (for instance whole numbers and decimals). In debug builds the constructor of a table returns for the new grammar exactly if it returns for the old one. If some table of the old grammar has no conflicts (for a Lalr table: lookaheads are passed on) and every rule derives a text, the Clr table of the new grammar has no conflicts; if it is the Slr table, and all rules and x can be reached, neither the Slr nor the Lalr table has. An LR(1), SLR(1) or LALR(1) grammar stays one. Whenever both tables have no conflicts, the new parser accepts a token sequence exactly if the sequence does not contain x and the old parser accepts it with x in place of each yi. If the reductors of x pass their item on, both parsers then return the same value. The start symbol occurs in no body and the end mark is a token other than x and the yi. That the new tokens are different and not used elsewhere is needed.", "quantifier": "all declarations, tokens, lists of new tokens, construction methods, token sequences, reductor maps", "why_tests_cant": "The claim relates the tables and parsers of two grammars for every grammar and every way to split a token; a test can look at a few grammars and texts.", "anchors": ["src/clr.rs:new", "src/slr.rs:new", "src/grammar.rs:new", "src/clr.rs:proc_actions", "src/slr.rs:proc_actions", "src/dfa.rs:trace", "src/parser.rs:parse", "src/parser.rs:validate"]}
{"id": "C114", "title": "Two languages can follow each other with a token between them", "statement": "Take two grammars that do not use each other's rule names, with start rules `S` and `R`, and a token m that the first grammar does not use (the second one may use it), and put them together with the new rules `Z -> C` and `C -> S m R`, `Z` being the start: a text of the first, m, a text of the second. (1) In debug builds a table can be made exactly if in both grammars no production is empty and folding leaves nothing of the two graphs of C79. (2) If some table of each grammar has no conflicts, the Clr table of the whole has none; if the Slr tables of both have none and in both all rules can be reached, the Slr and Lalr tables of the whole have none; if the Lalr tables of both have passed their lookaheads on and have none, a Lalr table of the whole has none in which no state can be mistaken for a successor of another one (C69). (3) If the three tables, made by whichever methods, have no conflicts, the parser of the whole accepts exactly the texts that consist of a text the first parser accepts, m and a text the second parser accepts. (4) The value is what the reductor of `C -> S m R` makes of the value of a parse tree of the first grammar, the token and the value of a parse tree of the second one, for the tokens given. If the first grammar uses m there can be conflicts.", "quantifier": "all pairs of grammars with separate rule names, in (2) those whose rules all derive something, all new names, all tokens m, all inputs, all reductors, in (3) all methods of the three tables (Lalr: if lookaheads are passed on; the start symbols are in no body; eof is used in no rule and is not m)", "why_tests_cant": "Ranges over all pairs of grammars; relates the tables of three grammars and the outcomes of their parsers on all inputs.", "anchors": ["src/clr.rs:new", "src/slr.rs:new", "src/grammar.rs:new", "src/clr.rs:proc_actions", "src/slr.rs:proc_actions", "src/dfa.rs:trace", "src/parser.rs:parse", "src/parser.rs:validate"]}
