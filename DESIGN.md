# DESIGN — a Lean 4 model of Defmc/lrp and its properties

The project is a generator of LR parsers (`lrp`: Slr, Clr, Lalr) and a grammar language on top of it
(`wop`). `/verif/lean` holds an executable model of both, separate specifications, and proofs.

## What is modelled

Executable Lean definitions, function by function; every definition cites its file and lines.

| Rust | Lean (`lean/Verif/Model`) |
|---|---|
| `BTreeSet`, `BTreeMap` (std), `Ord` | `Collections` — strictly increasing lists, class `LinOrd` |
| panics, non-termination, `transitive` (src/lib.rs) | `Outcome` |
| src/pos.rs, src/grammar.rs, `Token`, `grammar_map!` | `Grammar` |
| `Span` (src/lib.rs) | `Span` |
| src/tabler.rs (FIRST, FOLLOW, states, actions, `reduce_equals`) | `Tabler` |
| src/slr.rs, src/clr.rs, shared parts of src/parser.rs | `Automaton` |
| src/lalr.rs, `Parser::merged` | `Lalr` |
| src/dfa.rs, `Parser::{dfa, parse, validate, cloned}` | `Dfa` |
| the same once more, for reductors with side effects (C72) | `Effects` |
| and for iterators that do something when asked for a token, with std's `Peekable` (C78) | `Stream` |
| the tables printed by src/main.rs (rows and cells, not the layout), with the trace of a run | `Main` |
| `main` of src/main.rs, from the lines it reads to the rows and results it prints | `Demo` |
| `Display` and `Debug` of `Position`, derived `Debug` of `Action`, `Display` of `Error` (not `{:#?}`) | `Text` |
| `Ast`, `Sym` (wop/src/lib.rs) | `WopAst` |
| wop/src/builder.rs | `WopBuilder` |
| wop/src/out.rs, `build_parser`, `Builder::from_str` | `WopOut` |
| `main` of wop/src/main.rs, from the tokens to the text of `out.rs` and the result (errors of files left out) | `WopMain` |
| `print_nested` of wop/src/main.rs | `WopPrint` |
| the patterns of `Sym` and `lexer` (wop/src/lib.rs) | `WopLexer` |
| what the code written by `dump_grammar` and `dump_reductor` (wop/src/builder.rs) evaluates to | `WopGen` |
| the texts written by `dump_grammar` and `dump_reductor`, byte by byte | `WopText` |

Conventions and simplifications

* A call has an outcome `Out α`: `ok a`, `panic why`, or `fuel` (loop not finished with the given
  fuel). "Returns a" is `∃ n, f n = .ok a`; "never returns" is `∀ n, f n = .fuel`.
* `dbg : Bool` selects debug (`debug_assert!` on) or release builds; theorems quantify over it.
* `usize` is `Nat`; places where an underflow is reachable are explicit panics.
* `T: Ord` is a type with a lawful total order (`LinOrd T`); `M` is an arbitrary value type.
* The iterator of a `Dfa` is a finite list of tokens in `Dfa` and `Effects`, and any function on a state in
  `Stream` (`C78_list` relates them). Stacks of `Dfa` are kept top first.
* A reductor is a function to `Option`; `none` is a panic of the user's code. Side effects of reductors
  are in `Effects`, where a state is threaded through the run; `C72_pure` relates it to `Dfa`.
* Two recursive functions of src/lalr.rs are given fuel for their recursion (`update`, `gen`); running
  out of it is `fuel`, like a loop that does not end.
* wop: a `HashSet` is walked in an arbitrary order, which may differ from set to set (`Env.order`);
  theorems quantify over all orders. Hash maps are association lists (nothing observes their order).
  Sources are bytes, in theorems UTF-8 (`Utf8`, as every `str` is); slicing panics out of range and inside of a character.
  Generated code is modelled in two ways: as text (`WopText`), which `Spec/WopText` reads
  as Rust tokens (without comments and character literals) and statements; and as pieces (production symbols,
  `let`s with index ranges, code); `WopGen` evaluates these pieces, given any meaning of names as symbols and
  of code blocks as functions (`Rust`; the Rust types of rules are not modelled). Copies and references of a token are the same value, except in C60.
* The lexer is the standard meaning of the `logos` attributes (longest match, then order of
  declaration). Left open (arbitrary, quantified over): which non-ASCII characters are `\w`, and how
  long an error token is (both end between characters, as `logos` does on a `str`, and a character outside of ASCII has no byte of ASCII). No pattern is a proper prefix of another one, except for `:`, `alias` and `use`,
  so nothing depends on how `logos` backtracks.

Not modelled: memory, time, stack depth, `Display`/`Debug` texts (except the stack line of C55, and items, states, actions and errors in C82; how symbols are written is a parameter there), colours
and layout of src/main.rs (and input that is not UTF-8, or errors of its streams), files of wop/src/main.rs and what it prints besides `print_nested`
(tokens, which are sliced at their spans only, stacks, the result, the time), benches,
`Ord` implementations that are not total orders, iterators that panic, the Rust compiler, `lrp` versions other than the one in the repository
(wop's Cargo.toml names lrp 0.1.0; the model uses the sources in /repo/src).

## Specifications

`Verif/Spec` does not mention the algorithms: derivations, parse trees and their values (`Cfg`), LR(0)
and LR(1) items as least closed sets (`Lr`), FIRST/FOLLOW by derivations (`Basic`), runs and their
results (`Run`), LR(1), SLR(1), LALR(1) and LL(1)
by derivations (`Knuth`), renamed grammars (`Rename`), tables (`Equals`, `Views`), the meaning of wop rules (`Wop`: expansions of an
alternative, positions of aliases; `WopLang`: the token sequences and values a source describes), the concrete syntax of wop (`WopSyntax`), ends of code blocks
(`WopLex`), and a reader of generated Rust (`WopText`). Theorems are in `Verif/Props`, with examples that meet their hypotheses next to them, and
counterexamples for claims that are false of the code.

## Trusted base

* Lean's kernel (4.33.0). No axioms of our own, no `sorry`, no `native_decide`, no `bv_decide`; finite
  computations use `decide`/`decide +kernel`, which the kernel checks.
* Axioms used: at most `propext`, `Classical.choice`, `Quot.sound`; per theorem in the table at the end.
* The reading of the Rust sources documented in the comments of the model. It was checked in three places
  against the repository. `Props/Suite` runs the model on all unit tests of src/tabler.rs, src/slr.rs,
  src/clr.rs and src/lalr.rs (FIRST and FOLLOW tables, numbers of conflicts, answers of `validate`), and
  gets what the tests expect.
  `Props/Bootstrap` runs the model of the lexer, the Slr table, the
  parser and the builder on the bytes of wop/src/wop.grammar and obtains exactly the productions and
  `let`s of the checked-in wop/src/out.rs (including the wrong clone flags and positions of findings
  below). `Props/BootFile` runs the tests of wop/src/lib.rs on the model of the lexer, and compares the
  whole text that the model of wop/src/main.rs writes for wop.grammar with wop/src/out.rs: all tokens are the
  same, except what rustfmt changes (commas before closing brackets and the order of two imports). This last
  comparison is a `#guard`, evaluated when the file is built and not by the kernel; no theorem comes from it.
  None of the three is used by any other theorem.

## How the proofs go

* FIRST/FOLLOW (C05–C09): every iterate is sound for derivations; a path-doubling argument (`Doubling`)
  gives completeness at a fixpoint; the oscillating cliques are explicit witnesses.
* Closures and collections (C10–C14, C17): inflationary iterations in a finite universe of items; a
  work-list invariant; for Lalr an invariant relating `kernels` and `raws` and a measure on lookaheads.
* Tables (C15, C16): the fold of `add_action` characterised by the list of decisions.
* Soundness, completeness, values (C18–C31): an abstract LR automaton (`Machine`, `Sim`) with a stack
  invariant carrying parse trees as ghosts; the three builders are instances. Unambiguity comes from
  running the parser with trees as values. Termination: a run without progress would be an infinite
  chain of unit reductions at one state (`Halt`); with at most as many unit reductions in a row as there are nonterminals, this bounds the rounds (`Linear`).
* Side effects (C72): the same simulation with the state that the evaluation of the trees on the stack
  leaves. Iterators (C78): the same with the token read ahead; the input is put together from the tokens
  that the run asked for.
* Power of the builders (C36, C52), equal rows (C34, C35), printed views (C53–C57): simulations.
* LR(1) and SLR(1) (C63, C64): a conflict-free automaton reads every right sentential form up to its
  handle and then has one decision; conversely two decisions in a state are turned into two right
  sentential forms with exact lookaheads. Renaming (C65) follows from the definitions being invariant.
  C69: every lookahead of a Lalr table is backed by a rightmost derivation and a path to the state, kept as
  an invariant of `update` (`LalrSound`), if no state can be mistaken for another one's successor.
  C70: in an LL(1) grammar every state has one kernel position up to lookahead, because the way from a
  nonterminal down to a leading terminal is unique.
* wop (C41–C50, C58–C62, C66, C67): expansions of an alternative as a list, with positions of aliases as ghosts;
  the productions made by `get_from_single_production` are related to expansions one by one (`Rel`);
  the table of wop's own grammar is evaluated in the kernel and then C18/C21/C25/C27 apply to it; its
  trees are read as declarations by induction (`WopParse`). C66 and C67 combine these with C18–C25.
  C74–C76: every piece of text is a sequence of whole tokens (`Lexes`), which the readers take apart again.
  C79: on nonterminals the iteration is folding; the terminals are complete once all shortest paths are.
  C77: the relation of C58's proof also says how entries of one name are copied (`KindOk`).

## Findings

Claims that are false of the code, each with a proved counterexample:

1. Computing FIRST/FOLLOW may never end (C06): a cycle of three nonterminals through first or last
   symbols makes `proc_first`/`proc_follow` oscillate. C79 says exactly which grammars are affected.
2. In release builds, mutually left-recursive nonterminals without a terminal start leave nonterminals
   in FIRST and FOLLOW (C07, C08).
3. Lalr passes new lookaheads on only through kernel items: a conflict-free Lalr table may reject
   sentences (C23), and Lalr may lack conflicts that Clr has (C52).
4. A start symbol used in a body breaks exactness of all three (C18_needs_start).
5. Slr and Lalr tables with conflicts may make `parse` loop (C27).
6. A token whose type is a nonterminal hangs the parser (C28).
7. `Dfa::reset` clears the state stack, so `Dfa::parse` cannot be used a second time, and not even a
   first time when the body of the start rule begins with a nonterminal (C32).
8. The expected list of an error contains nonterminals, and for Slr lacks terminals that may come next
   (C31).
9. `Parser::parse` returns the value of the last symbol of the start production (C24).
10. `reduce_equals` is not idempotent (C35).
11. In release builds a grammar with nonterminals that derive no terminal string may have a
    conflict-free Slr table and conflicts in its Clr and Lalr tables (C36_needs_first).
12. The printed FIRST/FOLLOW table pairs rows by position (C53_needs_context), and in the printed action
    table the columns of nonterminals are one to the right of their titles (C57_columns).
13. wop: an alias below a group is `Some` although its item was skipped, and may read past the end of
    the production (C43); the alias of a group with optional items or groups has the wrong range (C44).
14. wop: an alias written `:x` is copied like `:&x`, because wop's own reductors were generated with
    bug 13 (C60).
15. wop: a code block whose text ends with `}}%` swallows what follows, up to the next `}%` with an even
    number of `}` before it; a rule may vanish silently (C61). The same holds for comments ending in
    `**/`.
16. wop: the README writes `alias X = Y;`; this is a syntax error (`readme_alias`).
17. wop: token aliases apply only to rules declared after them (C48; stated that way).
18. The order of the symbols decides which lookaheads Lalr passes on: swapping two names may make it
    accept a sentence it rejects, or report a conflict it does not report (C65).
19. `update_closures` looks up the successor of a state by its kernel items only, and may so find another
    state and add lookaheads to it: Lalr may report conflicts for an LALR(1) grammar (C69_false).
20. An alias name used in two alternatives of a group and missing in a third, as in `(A:x | B:x | C)`, is bound
    to `Some` of the first token in the productions of the third, instead of `None` (C43_unbalanced).
21. After a syntax error `wop` does not stop: it processes the bottom of the parser stack, overwrites `out.rs`
    with the dumps for the declarations before the error, and only then returns the error (C73_false). If no
    complete declaration is followed by the first token of another one, it panics instead (C73_panics).
22. wop: a rule may be named by a path, but the functions generated for it are not Rust (`fn lrp_wop_A::B_0`,
    C75_false). A code block whose braces are not balanced, or that ends in a line comment, breaks the text too.
23. wop: rule names are compared as texts. `A::B` and `A ::B` are taken as two rules; the generated code inserts
    both under the same key, and the one that a hash map yields last wins (`WopSamples.twice_run`).
24. wop: an alias named `toks` hides the argument of the generated function from the following `let`s
    (`WopSamples.toks_run`).
25. wop: `dump_reductor` is documented to panic never; it panics unless the caller has set `entry_type`, which
    `from_str` leaves empty.
26. wop: an alias inside an optional group is an `Option` of a copy in the functions in which it is bound, and an
    `Option` of a reference in the others, as the copy flag of an alias is not passed on (C77_false). A code block
    that uses it cannot be compiled in both, unless it is generic in the type.
27. wop: an alias on an optional group is set by `Some(toks[0].to_vec())` where the group is skipped, which is not
    Rust unless the items have a method `to_vec` (`WopSamples.opt_types`).
28. The demonstration program src/main.rs has no way to end: at the end of its input it goes on printing the
    error for an empty line, without end; any character besides brackets, `c` and `d`, also a blank between two
    brackets, makes it panic (C81_main).
29. A `Dfa` that has reported `IncompleteExec` reports success when it is started again, with input left over
    (C85_forgets): `accept` sets `finished` before it looks at the buffer.
30. In release builds an Slr table can hold conflicts under a nonterminal, because FOLLOW sets contain the
    nonterminals of finding 2's cliques (C86_false). A sentence of an Slr grammar is then rejected with `Conflict`
    after the stack of items has been changed and that of states has not been filled up, and starting the `Dfa`
    again gives another error (`AgainSamples.slr_conflict`).
31. `with_table` does not clear what it is given. On the table of a finished parser it appends states and rows that are
    never used, so that `Clr::with_table(slr.table)` is silently the Slr parser (C92_not_clr), and `Lalr::with_table`
    panics on the table of a Clr parser (C92_lalr_panics).
32. A Lalr table without conflicts does not mean that the grammar is unambiguous: for `S → A x | z A y | z A`, `A → c B`,
    `B → d e | d e y` the two parse trees of `z c d e y` meet only under a lookahead that got lost (C25_false_lalr).

## Wrong programs

`seeded/LOG.jsonl` lists edits of the model, made in a scratch copy, that imitate bugs, with the theorems
that stopped proving. Survivors led to new properties (C55, C56) or are equivalent edits and marked so.

## Properties

* **C01 Fixpoint iteration returns the first fixpoint of the orbit** (proved) — returns / panics / diverges characterised by the orbit of the seed
* **C02 Production numbering is faithful** (proved)
* **C03 Grammar symbol classification** (proved) — for every rule map (any sorted association list), both builds
* **C04 grammar_map! keeps the last declaration of each name and ignores declaration order** (proved)
* **C05 FIRST sets are exact** (proved) — any grammar for which Tabler::new returns, both builds
* **C06 The FIRST/FOLLOW computation terminates** (partial) — The statement is false of the code: C06_refuted, with two diverging grammars. Proved for grammars whose graphs of leftmost and of last nonterminals fold away, among them all those with no three nonterminals on a common cycle. C79 says exactly for which grammars it returns.
* **C07 FOLLOW sets are exact** (partial) — Completeness proved in full. The converse is proved for debug builds and whenever FIRST holds only terminals; it is false in release builds otherwise (C07_false_release). C07_exact says what FOLLOW is in all builds. eof must not itself be a declared rule.
* **C08 FIRST and FOLLOW contain only terminals** (partial) — False in release builds (C08_refuted). Proved for debug builds, and for release builds exactly when the two graphs of C06 fold away (C08_only_terminals_iff).
* **C09 Empty productions are rejected, and only they** (proved)
* **C10 LR(0) closure of Slr is the least closed superset** (proved) — seed is any strictly increasing list of positions with strictly increasing lookaheads (what a BTreeSet is)
* **C11 LR(1) closure of Clr is the least closed superset** (proved) — closure rule stated over the FIRST table; C05 gives its content
* **C12 Slr construction always terminates without panicking** (proved) — the hypothesis about FOLLOW of the property turned out to be unnecessary
* **C13 Clr construction always terminates without panicking** (proved)
* **C14 Lalr construction always terminates without panicking** (proved)
* **C15 Action tables are well formed** (proved)
* **C16 Conflicts are reported exactly and nothing is dropped** (proved)
* **C17 States are the canonical collection, without duplicates** (proved)
* **C18 Slr soundness** (proved) — for any input tokens; C18_needs_start shows that the proviso on the start symbol is needed
* **C19 Clr soundness** (proved)
* **C20 Lalr soundness** (proved)
* **C21 Slr completeness** (proved) — stated as an equivalence together with C18
* **C22 Clr completeness** (proved) — stated as an equivalence together with C19
* **C23 Lalr completeness** (partial) — The statement is false of the code: C23_false. Proved under the extra condition that lookaheads have been passed on along all shifts and gotos of the table (decidable for a given table). C23_iff says exactly when a table without conflicts accepts all sentences of an unambiguous grammar.
* **C24 The parsed value is the bottom-up evaluation of a parse tree of the input** (proved) — all three methods, with or without conflicts
* **C25 Conflict-free tables certify an unambiguous grammar** (proved) — also for Lalr when lookaheads are propagated; C25_false_lalr shows that this cannot be left out
* **C26 Running a built parser never panics nor reports an internal error** (proved)
* **C27 Parsing terminates** (proved) — with counterexamples showing that Slr and Lalr tables with conflicts can make parse diverge
* **C28 Input tokens typed with a nonterminal are rejected** (partial) — "never accepted" is proved (C28_partial); "returns" is false of the code for all three methods: C28_false. C28_returns_partial proves the claim for grammars in which no nonterminal may be repeated without end on the stack, and C28_hangs_iff says exactly when the parser does not return.
* **C29 Acceptance consumes the whole input; end of input is reported as such** (proved)
* **C30 Errors are detected at the first wrong token (correct-prefix property)** (proved) — the second part also for Slr
* **C31 The expected-token list of UnexpectedToken is right** (partial) — For Clr the terminals of the list are exactly those that may follow. "Only tokens" is false for all methods (C31_false_only_tokens) and "every terminal that may come next" is false for Slr (C31_false_slr) and for Lalr (C31_false_lalr); C31_some_partial: the list of any table contains at least one terminal that may come next.
* **C32 A Dfa can be reused through Dfa::parse** (partial) — The statement is false of the code: if the body of the start rule begins with a nonterminal, Dfa::parse never succeeds (C32_false). C32_terminal_partial: if it begins with a terminal, the full statement holds for inputs of terminal tokens; so this decides it (C32_iff_partial). C32_partial holds for all grammars and inputs: it panics for lack of states or agrees with Parser::parse.
* **C33 merged unions lookaheads by body** (proved)
* **C34 reduce_equals preserves parsing** (proved) — for arbitrary tables whose targets are rows of the table, and hence for all built tables
* **C35 reduce_equals is total and never grows the table** (proved) — with a counterexample to idempotence
* **C36 Power hierarchy of the three builders** (proved) — with the strictness of the hierarchy and a counterexample showing that the proviso is needed in release builds
* **C37 Span slicing is half-open and total exactly on valid ranges** (proved)
* **C38 Tokens are consumed in order, each exactly once** (proved) — first part for arbitrary tables and inputs
* **C39 Position arithmetic** (proved)
* **C40 State selection by symbol** (proved)
* **C41 wop: optional items and groups expand to exactly the described sequences** (proved)
* **C42 wop: item aliases point at the aliased symbol** (proved)
* **C43 wop: an alias of a skipped optional item is None** (partial) — False for aliases of optional items below groups (C43_false, and C43_boundary for every name not covered); C43_partial proves it for the names that every taken alternative containing them takes, C43_actual says exactly when an alias is None. A name used twice that is missing in one alternative of the group breaks the claim too (C43_unbalanced).
* **C44 wop: the alias of a group covers exactly the group's tokens** (partial) — False when an alternative of the group has optional items or groups (C44_false); C44_boundary: the range is right exactly if the alternative has as many symbols as items written, which C44_partial assumes; C44_actual gives the range in all cases.
* **C45 wop: every production of a rule binds the same alias names** (proved) — C45_option assumes that no alias name is used twice, except in all alternatives of a group.
* **C46 wop: reductor i belongs to production i** (proved)
* **C47 wop: duplicate declarations and misplaced code blocks are rejected** (proved)
* **C48 wop: token aliases apply to the rules declared after them** (proved)
* **C49 wop: the wop grammar itself is conflict-free and its parser exact** (proved) — with the concrete syntax (C49_syntax) the grammar stands for
* **C50 wop: AST construction never hits unreachable code and spans are tight** (proved) — C50_program also gives the declarations the tree stands for
* **C51 On a sentence a parser succeeds or reports a conflict** (proved)
* **C52 A Lalr table without conflicts means the grammar is LR(1)** (partial) — False of the code in general, because Lalr loses lookaheads: C52_false. Proved when lookaheads have been passed on along all shifts and gotos. C52_iff says exactly when the Lalr and the Clr table agree.
* **C53 FIRST and FOLLOW have an entry for every nonterminal that can have one, and are printed in step** (proved) — with a grammar showing that the printed table is wrong without the hypothesis
* **C54 Every transition can be looked up through final_kernel and state_from_kernel** (proved)
* **C55 stack_fmt shows a path of the automaton** (proved)
* **C56 The cloned reductors return the symbol of the first child** (proved)
* **C57 The printed table of actions is complete** (proved)
* **C58 wop: the lets of every reductor give every alias exactly its items** (proved)
* **C59 wop: from_str builds exactly the declarations written** (proved)
* **C60 wop: `:name` binds a reference and `:&name` a copy** (partial) — False of the code: an alias written without & is also copied (C60_false). Proved: every alias of a taken item is copied, so the claim holds for :&name.
* **C61 wop: a code block ends at the first `}%`** (partial) — False of the code when the block ends with }}% (C61_false; a rule can get lost, WopSamples.braces_rule_lost). C61_partial covers blocks whose first }% is not preceded by }, C61_actual says where every block ends.
* **C62 wop: from_str decides every source text, and what it builds can be dumped** (proved)
* **C63 Clr has no conflicts exactly for LR(1) grammars** (proved) — C63_needs_productive shows that the hypothesis on useless nonterminals is needed in release builds.
* **C64 Slr has no conflicts exactly for SLR(1) grammars** (proved) — C64_slr_all_builds covers the release builds that C64_slr_iff leaves out: there the sets are those of C07_exact.
* **C65 Names and order of symbols do not matter** (partial) — False of Lalr (C65_false, C65_lalr_conflicts): which lookaheads are passed on depends on the order of the symbols. C65_partial proves the full statement for Slr and Clr, C65_lalr_partial for Lalr tables in which lookaheads have been passed on and no states mixed up. C102 proves that the order is all the Lalr table depends on.
* **C66 wop: the generated parser accepts what the source describes** (proved)
* **C67 wop: the generated parser computes what the code blocks describe** (proved)
* **C68 Parsing takes linear time** (proved)
* **C69 LALR(1) grammars and the Lalr table** (partial) — False in both directions (C69_false): update_closures may add lookaheads to a state that is not the successor (finding 19), and lookaheads may get lost (finding 3). C69_iff_partial proves it for tables where neither happens (Propagated, Unmixed: both conditions on the table, decidable); C69_clr and C69_classes hold without them.
* **C70 LL(1) grammars need no care** (proved)
* **C71 How many states, and when Lalr is Clr** (proved)
* **C72 Reductors are called once per node, children first, from left to right** (proved)
* **C73 The command line program writes out.rs only for a program** (partial) — C73_ok_partial and C73_reports_partial prove the first two parts. The third is false (C73_false, finding 21): after a syntax error main goes on with the bottom of the parser stack. C73_error, C73_overwrites and C73_panics say exactly what happens then: main works on the longest beginning of the source that is a program and is followed by the first token of a declaration, and panics if there is none.
* **C74 wop: the text of dump_grammar says what the source says** (proved) — Two rules whose names are the same path written differently get the same key (WopSamples.twice_run, finding 23).
* **C75 wop: the functions of dump_reductor** (partial) — False for rules named by paths (C75_false, finding 22). C75_partial proves the full statement for rules named by words, names of aliases that are words, types without >, and code blocks with balanced braces.
* **C76 wop: the values of the lets in the text** (proved) — An alias named toks makes the function fail (WopSamples.toks_run, finding 24).
* **C77 wop: an alias has one type** (partial) — False for aliases inside optional groups (C77_false, finding 26). C77_partial proves the statement, and gives the types, for alternatives in which no group with aliases on it or inside is optional, the alternatives of a group have the same aliases, and no name is put both on an item and on a group.
* **C78 One token of lookahead: when `parse` asks its iterator for a token** (proved) — C78_error, C78_panic and the live theorems are for iterators that yield only terminals; C78_live is for conflict-free tables of productive grammars, C78_live_clr for all Clr tables.
* **C79 Exactly which grammars lrp can compute FIRST and FOLLOW for** (proved)
* **C80 The printed trace of a run is a rightmost derivation, backwards** (proved) — C80_rows and C80_last are for inputs of terminal tokens (C80_derivation needs no such hypothesis).
* **C81 The demonstration program decides nested brackets, and never ends** (proved)
* **C82 The texts of items, states, actions and errors say which ones they are** (proved) — The alternate form {:#?} is not modelled.
* **C83 wop: no character is cut in two** (proved)
* **C84 wop: the file out.rs** (proved) — C84_ok, C84_error and C84_panics cover all sources; C84_reads is for sources whose names do not contain the punctuation that ends them in the text (GrammarLegible, ReductorLegible, Braceless).
* **C85 Starting a Dfa again changes nothing** (partial) — False for IncompleteExec in all builds (C85_forgets, C85_false_debug) and for a conflict found under a nonterminal in release builds of Slr (C85_false). C85_again_partial covers all other results: for Clr and Lalr everything but IncompleteExec.
* **C86 Columns of nonterminals hold gotos only** (partial) — False in release builds of grammars in which FIRST or FOLLOW sets hold nonterminals (C86_false). C86_columns_partial covers debug builds and all grammars whose graphs fold away; C86_kinds all; C86_met: in Clr and Lalr tables no run meets such a conflict.
* **C87 The three parsers agree** (proved) — For Lalr the lookaheads must have been passed on (C87_needs_propagated).
* **C88 Taking alternatives away introduces no conflicts** (proved) — C88_clr and C88_slr; C88_false_lalr shows why Lalr is excluded.
* **C89 Rules that cannot be used change nothing in a Clr or Lalr parser** (proved) — Identical tables for Clr and Lalr (C89_same), hence identical parses (C89_parses); C89_false_slr shows why Slr is excluded.
* **C90 Conflicts in a table are not idle: some input meets one** (proved) — C90_met: a conflict cell under a terminal has an input that parse answers with Conflict (Slr and Clr; Lalr with Propagated, Unmixed and one production of the start rule). C90_iff: no conflicts in the table iff no input is answered with Conflict (for Slr in debug builds or when the graphs fold away; nonterminal columns of Clr and Lalr are handled in every build). C90_lr1: with C63, LR(1) iff the Clr parser answers no input with Conflict. Hypothesis: every rule derives a string of terminals; C90_needs_productive shows a Clr table with a conflict that no input meets otherwise.
* **C91 wop: from which programs a parser can be made** (proved) — C91_makes: exact, for every builder and build, in terms of the items as written (which can be left out, what alternatives begin and end with, what stands side by side); C91_debug: the simpler form for debug builds with a token for the end of input; C91_empty: every builder panics if an alternative can be left out. WopSamples.sum_makes and void_panics are the concrete cases.
* **C92 with_table does not rebuild a filled table: the parser stays the old one** (proved) — C92_same: whatever with_table returns parses every input as before; C92_returns: Slr and Clr always return; C92_again: the exact result for the same method; C92_lalr_panics: Lalr on a Clr table. C92_not_clr shows a grammar for which Clr::with_table on the Slr table answers Conflict where Clr::new accepts. Whether Lalr::with_table returns on Slr and Lalr tables depends on the grammar and is not characterised.
* **C93 How high the stack of a run gets** (proved) — C93_height and C93_bounded hold for every table, with or without conflicts; C93_unbounded needs a table without conflicts (Lalr: with lookaheads passed on), productive rules and a start rule with one alternative in no body; C93_iff puts the two together.
* **C94 Any rule can be made the start by wrapping it** (proved) — C94_makes (debug, exact), C94_makes_release (sufficient), C94_sound, C94_exact, C94_value for every builder; C94_clr: exact condition for the Clr table, for grammars whose rules all derive terminal strings and whose bodies do not contain the end symbol; C94_below: every reachable rule of a grammar with a conflict-free table. C94_needs_wrapping: without the new rule, release builds make parsers without conflicts that accept a non-sentence (Slr) or reject a sentence (Clr).
* **C95 The names of a program cannot garble the Rust that is written** (proved) — C95_words and C95_legible need only that the source reads as a program (and no slash in paths); C95_reductors says what is left to the author; C95_grammar and C95_file compose them with C74 and C84. Spec.Commentless is the assumption about comments: a comment inside of a path lies inside its span and gets into the written name.
* **C96 An alternative between fresh brackets brings no conflicts** (proved) — C96_lr1 is about grammars alone (Knuth's LR(1)); C96_makes, C96_clr and C96_parses carry it to the tables; C96_slr1 and C96_slr are the same for SLR(1) and the Slr table. C96_false_lalr, C96_needs_fresh and C96_needs_reachable show what cannot be dropped.
* **C97 Debug and release builds make the same parser** (proved) — All three methods; Tidy is what the two kinds of debug assertions that can fail check. Those on kernels (slr.rs, clr.rs, lalr.rs) never fail: C12-C14.
* **C98 Hash iteration order does not change the generated parser** (proved) — Two runs of from_str on the same tokens, with any two families of orders for the hash sets; the grammar is compared as a map, the reductors as functions.
* **C99 A parse that is not over after linearly many rounds never ends** (proved) — All three methods, tables with or without conflicts, no condition on productivity. That a loop cannot be told from a late panic of a reductor is why C99_decides asks that none panics.
* **C100 The order of the alternatives of a rule does not matter** (proved) — Results: for conflict-free tables. Lalr conflicts under the conditions of C69 (C65 and C69 show what goes wrong without them).
* **C101 Alternatives in another order are only renumbered in the table** (proved) — FIRST, FOLLOW, states and actions; the map of kernels is not compared. That no rule has the same alternative twice is needed: in the order of positions such alternatives are told apart by their numbers.
* **C102 Of the names of symbols only their order matters** (proved) — FIRST, FOLLOW, states and actions; the map of kernels is not compared.
* **C103 Calling reduce_equals until nothing changes** (proved) — Not claimed: that the last table is the smallest one that parses alike.
* **C104 Values do not steer a parse, and reductors see only values of the right kind** (proved)
* **C105 What a parse has not read does not matter** (proved)
* **C106 Ambiguity shows** (proved) — C106_false_lalr: not for all Lalr tables. C106_sentence asks for reductors that give values to the trees; C106_unique takes any reductors. AllProductive is asked of the whole grammar, although the symbols around the rule would do.
* **C107 Of the alternatives of the start rule only the first counts** (proved) — C107_lost shows the lost sentence for all three methods. C107_only_first holds of every Lalr table too.
* **C108 After an unexpected token the input can be mended in place** (proved) — C108_false_slr and C108_false_lalr show that (2) is not true of the other methods. A `Peekable` buffer is modelled by the list of its tokens; replacing it is replacing the list.
* **C109 A parser without conflicts is never lost** (proved) — The rest is shown to exist; no function that computes it is part of the code or of the model.
* **C110 A parser for one text gives a parser for a sequence of texts** (proved) — C110_lr1, C110_slr1 and C110_lalr1 say it of the grammars, the others of the tables and parsers; C110_needs_mark shows that the mark has to be used nowhere else.
* **C111 One language can be embedded in another between brackets of its own** (proved) — C111_lalr1 and C111_unmixed are for grammars whose Slr tables may have conflicts (C111_slr_conflict); C111_needs_new shows that the brackets have to be used in neither grammar.
* **C112 Two languages whose texts begin with different tokens can be joined** (proved) — C112_lr1, C112_slr1 and C112_lalr1 say it of the grammars, C112_makes, C112_parses, C112_slr, C112_lalr, C112_unmixed, C112_exact and C112_value of the tables and parsers; C112_needs_apart is the counterexample for texts that begin alike.
* **C113 A token can be split into several** (proved) — The Clr table needs that every rule derives a text (C63). The reductors of x must return the item of their single token for the values to agree.
* **C114 Two languages can follow each other with a token between them** (proved) — C114_lr1, C114_slr1 and C114_lalr1 say it of the grammars, the others of the tables and parsers; C114_needs_first is the counterexample for a token that the first grammar uses.

## Axioms of the theorems


* `propext, Classical.choice, Quot.sound`: C01_returns_iff, C01_panics_iff, C01_diverges_iff, C02_distinct, C03_panics, C04_declared, C05_first_exact, C05_first_sound, C06_terminates_partial, C06_no_long_cycle_partial, C06_false_first, C06_false_follow, C06_refuted, C07_exact, C07_follow_complete, C07_follow_sound_partial, C08_only_terminals_iff, C08_only_terminals_partial, C09_empty_rejected, C09_empty_always, C09_no_other_panic, C10_closure, C11_closure, C12_slr_total, C12_slr_new, C13_clr_total, C13_clr_new, C14_lalr_total, C14_lalr_new, C15_slr, C15_clr, C15_lalr, C16_slr_cells, C16_slr_conflicts, C16_clr_cells, C16_clr_conflicts, C16_lalr_cells, C16_lalr_conflicts, C17_slr, C17_clr, C17_lalr, C18_slr_sound, C19_clr_sound, C20_lalr_sound, C21_slr_complete, C22_clr_complete, C23_false, C23_partial, C23_iff, C24_value, C24_value_single, C25_unambiguous, C25_follows, C25_panics, C26_no_panic, C26_panics, C26_validate, C27_clr_returns, C27_conflict_free_returns, C27_validate_answers, C27_slr_needs_conflict_free, C27_lalr_needs_conflict_free, C28_partial, C28_hangs_iff, C28_returns_partial, C29_eof_token, C29_unexpected_eof, C29_prefix, C30_viable, C30_first_wrong, C31_clr_terminals_partial, C31_not_offending, C31_false_slr, C31_false_lalr, C31_some_partial, C32_false, C32_terminal_partial, C32_iff_partial, C34_same_run, C34_same_outcome, C34_same_language, C34_conflicts, C35_closed_tables, C35_built_tables, C36_slr_weakest, C36_productive, C37_span_panics, C37_str, C37_str_panics, C38_parse_trees, C39_run, C41_expansions, C42_alias, C43_partial, C43_actual, C43_boundary, C44_actual, C44_boundary, C44_partial, C45_names, C45_option, C46_reductors, C47_rejects, C47_records, C48_scope, C49_exact, C49_unambiguous, C49_answers, C49_syntax, C50_evaluates, C50_spans, C50_program, C50_error, C51_sentence, C52_partial, C52_iff, C53_keys, C53_printed, C54_slr_clr, C54_lalr, C55_debug, C55_stack, C56_total, C56_value, C57_all_shown, C58_lets, C59_builds, C59_rejects, C60_partial, C60_false, C61_actual, C61_partial, C61_false, C62_total, C63_lr1, C63_no_conflicts, C63_clr_iff, C63_parses, C63_needs_productive, C64_slr1, C64_no_conflicts, C64_slr_iff, C64_slr_all_builds, C65_clr_conflicts, C65_slr_conflicts, C65_accepts, C65_partial, C65_lalr_partial, C66_grammar, C66_accepts, C67_sound, C67_exact, C67_panics, C68_clr, C68_conflict_free, C69_lalr1_partial, C69_no_conflicts_partial, C69_iff_partial, C69_clr, C69_classes, C69_false, C70_no_conflicts, C70_accepts, C70_classes, C70_needs_propagated, C71_same_cores, C71_lalr_least, C71_lalr_slr, C71_same_table, C71_iff_count, C71_accepts, C72_order, C72_error, C72_follows, C72_panics, C72_once, C73_ok_partial, C73_error, C73_reports_partial, C73_overwrites, C73_panics, C73_false, C74_reads, C75_partial, C75_false, C76_values, C77_partial, C77_false, C78_order, C78_error, C78_follows, C78_panic, C78_live_clr, C78_live, C79_returns_iff, C79_debug_iff, C79_panics_iff, C79_diverges_iff, C80_rows, C80_last, C80_derivation, C81_answer, C81_main, C82_item, C82_items, C82_states, C82_actions, C82_errors, C82_legible, C83_tokens, C83_prints, C84_ok, C84_error, C84_panics, C84_reads, C85_again_partial, C85_front, C85_false, C85_false_debug, C86_columns_partial, C86_kinds, C86_met, C87_incomplete, C87_agree, C87_needs_propagated, C88_clr, C88_slr, C88_false_lalr, C89_clr, C89_false_slr, C89_same, C89_parses, C90_met, C90_iff, C90_lr1, C90_needs_productive, C91_makes, C91_debug, C91_empty, C92_same, C92_returns, C92_again, C92_lalr_panics, C93_height, C93_bounded, C93_unbounded, C93_iff, C94_below, C94_makes, C94_makes_release, C94_sound, C94_exact, C94_value, C94_clr, C94_needs_wrapping, C95_words, C95_legible, C95_reductors, C95_grammar, C95_file, C96_lr1, C96_lr1_symbol, C96_makes, C96_clr, C96_parses, C96_slr1, C96_slr, C97_same, C97_debug_iff, C97_panics, C97_reduce, C98_panics, C98_builds, C98_grammar, C98_tables, C98_reductors, C99_within, C99_decides, C99_acyclic, C99_validate, C100_places, C100_makes, C100_clr, C100_slr, C100_lalr, C100_agree, C101_same, C101_fails, C102_same, C103_fixed_iff, C103_same_count, C103_stops, C103_built, C103_same_outcome, C103_conflicts, C103_example, C104_related, C104_typed, C104_translated, C105_reported, C105_stays, C106_sentence, C106_unique, C106_rule, C106_same, C106_loop, C106_ends, C106_both, C106_dangling, C107_only_first, C107_first, C107_exactly, C108_mend, C108_resume, C108_headway, C108_sound, C108_false_slr, C108_false_lalr, C109_completable, C109_after_error, C109_listed, C109_clr_list, C110_lr1, C110_makes, C110_exact, C110_parses, C110_slr1, C110_slr, C110_lalr, C110_value, C110_lalr1, C110_unmixed, C111_lr1, C111_makes, C111_exact, C111_parses, C111_slr1, C111_slr, C111_lalr, C111_lalr1, C111_unmixed, C112_makes, C112_lr1, C112_slr1, C112_exact, C112_parses, C112_lalr1, C112_unmixed, C112_slr, C112_lalr, C112_value, C113_makes, C113_lr1, C113_exact, C113_parses, C113_slr1, C113_slr, C113_lalr, C113_lalr1, C113_unmixed, C113_value, C114_makes, C114_lr1, C114_exact, C114_parses, C114_slr1, C114_slr, C114_lalr, C114_lalr1, C114_unmixed, C114_value
* `propext, Quot.sound`: C02_numbering, C02_single, C03_classification, C04_lookup, C04_ext, C04_perm, C04_every, C07_false_release, C08_false_release, C08_refuted, C18_needs_start, C25_false_lalr, C28_false, C29_consumes_all, C31_false_only_tokens, C32_partial, C33_merged, C35_not_idempotent, C36_strict, C36_needs_first, C37_span, C37_conversions, C38_in_order, C39_readers, C39_body_eq, C40_sym_filter, C40_sorted, C43_unbalanced, C43_false, C44_false, C49_table, C52_false, C53_needs_context, C57_columns, C65_false, C65_lalr_conflicts, C68_observer, C71_needs_no_body, C72_pure, C78_list, C80_result, C85_success, C85_forgets, C86_false, C92_not_clr, C96_false_lalr, C96_needs_fresh, C96_needs_reachable, C97_release, C98_error, C102_fails, C105_unread, C105_panic, C106_false_lalr, C107_lost, C108_anytime, C108_taken, C110_needs_mark, C111_needs_new, C111_slr_conflict, C112_needs_apart, C113_needs_nodup, C113_needs_fresh, C114_needs_first
* `propext`: C39_finished, C39_clone_next
