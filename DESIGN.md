# Formal model of pczarn/cfg in Lean 4

This file says what is modelled, how each property in `properties.jsonl` is stated and
proved, and what is trusted. It was written before the proofs and is kept current.

## 1. Layout

| Path | Content |
|---|---|
| `lean/Verif/Spec/*.lean` | Specifications that do not mention the model: derivations, languages, reachability, sequences, regular expressions. |
| `lean/Verif/Model/*.lean` | The code, function by function. Each definition cites file and lines in `/repo`. |
| `lean/Verif/Proofs/*.lean` | Helper lemmas. |
| `lean/Verif/Props/*.lean` | The property theorems (one file per area) with an `example` beside each that meets its hypotheses. |
| `seeded/LOG.jsonl` | Wrong programs tried against the theorems. |
| `MANIFEST.json` | Property → theorem map. |

## 2. Modelling conventions

* A symbol is its zero-based number (`Symbol::usize()`); the `NonZeroU32` inside is number + 1.
  The symbol source itself is modelled with its numeric bounds (C01–C05); the grammar model
  uses the unbounded version, which C01 shows to agree with the bounded one below capacity.
* `&mut self` becomes a function returning the new value.
* A panic is the explicit value `Res.panic`; a loop that does not terminate is `Res.diverge`.
  Loops that the code does not obviously bound are written with fuel; the fuel is a computed
  amount and a theorem shows either that it is never exhausted or that exhaustion means
  that no amount suffices.
* Indexing (`bit_vec[i]`, `set`, `value[i]`) panics out of range in the model as in the code.
* `BTreeMap`/`HashMap` are modelled as functions or association lists with the same
  iteration order where order is observable.
* Rust's stable `sort`/`sort_by` is a stable insertion sort (same result, reduces in the kernel).
* "Language" is always taken relative to a fixed set of terminals, so that statements
  about a transformed grammar speak about the terminals of the original.

## 3. Per-property plan

See the table; "finding" marks a property that the code violates: then the negation is proved
with a concrete witness and the strongest true part is proved as `_partial`.

| Id | Model | Proof |
|---|---|---|
| C01–C04 | `SymbolSource` with bound and build profile; list of generating calls | invariant by induction over calls |
| C05 | (de)serialisers on Nat / byte lists | algebra, little-endian round trip |
| C06 | `Mapping` as two tables | pointwise |
| C07–C08 | `SymbolBitSet` as `List Bool` with panicking index | folds; C08 finding: inverted |
| C09–C10 | `rhs_closure` worklist with occurrence map and stack | invariant: closed-except-for-stack; least fixpoint as an inductive predicate |
| C11 | `rhs_closure_with_values` | soundness by derivation cost, completeness by closedness, termination by well-founded measure |
| C12–C17 | `add_rule`, `limit_rhs_len` | loop invariant, language transfer through fresh-symbol definitions; C15/C16 findings |
| C18–C22 | direct | induction on derivations / list lemmas; C21 finding |
| C23–C27 | `binarize_and_eliminate_nulling_rules` | C09 + derivation trees; C27 finding |
| C28–C32 | `Usefulness` | C09, C33; C32 finding (one pass is not enough; two are) |
| C33–C38 | Warshall closure model of the external `bit-matrix` crate | invariant on intermediate vertices; C36/C38 findings |
| C39–C40 | `rule_recursion` | C33; C40 finding |
| C41–C47 | FIRST/FOLLOW/LAST/LL | pass iteration with a decreasing measure; least fixpoint; C42/C44/C46 findings |
| C48 | `Lr0Closure::closure` | C48 finding: kernel items overwritten |
| C49–C52 | sequence rewriting, worklist with memo table | denotation of partial sequences, induction on a measure |
| C53–C54 | precedence builder as a program of builder calls | simulation of derivations |
| C55–C56 | remapping | bijection on symbols lifts to derivations |
| C57–C58 | predict distance | C11; findings by witness |
| C59–C61 | random generation with an oracle for the random source | work-list invariant "result ++ work derivable" |
| C62–C64, C89–C91 | lexer map over code points | exact semantics of ranges; findings |
| C65 | `walk_hir` | structural induction using C49 |
| C66, C68, C92 | tokeniser, evaluator, grammar building; the external Earley parser is a parameter with a contract | independent lexical and syntactic specification; invariant over the building loop; C68 finding |
| C93, C94 | tokeniser with positions, syntax, evaluator of the advanced loader | inductive lexical specification, independent syntax, viable prefixes, unambiguity |
| C95–C100 | building of the advanced grammar: symbols, literals, spliced expressions, tables | invariant over the building loop relating rules to written clauses, `Describes` as independent meaning of a file; C95, C97, C99, C100 findings |
| C101, C102 | parse trees of split rules and of rewritten sequences | `IsForest`: trees with numbered rules; bijections by folding away the pieces, unique cuts of repetitions |
| C103, C104 | parse trees of precedenced rules; operator tables | `PrecForest`: trees that respect precedence; bijection by folding away the unit chains of the levels; `OperatorTable`: roles of tokens, uniqueness by bracket depth and the first (last) loosest operator; exactly the tables without a level that has both a leftward and a rightward alternative are unambiguous |
| C105 | distances to recursion | the distance call of C87 at the recursive dots, with bounds for its backward reports; witnesses that the numbers are not the distances |
| C106 | `stringify_to_bnf` | read from the end: the number behind the last bracket tells the symbol, its name is then known and cut off; with other names the cut is at the last blank |
| C107 | parse trees under reversal, sorting, wrapping, cleaning, renumbering | `Forest.relabel`/`Forest.mirror`: bijections of trees from bijections of rule positions |
| C108, C109 | finitely many parse trees | induction on the length of the string and the well-founded order of one-symbol rules; a cycle makes each tree larger without end; witnesses with rules `A ::= A` |
| C110, C111 | the macro `cfg_regexp!`: flattening of the token tree, one line per token, span of an error | `Lines` and `Reads` as independent meaning of a token stream; the lines are lexed one by one, then C93–C98; findings for line breaks, raw strings and the inverted `is_empty` |
| C112 | LL(1) classification and parse trees | induction on two trees in front of the same rest of a text: the next terminal selects a cell, which holds one rule; FOLLOW is carried as the set of what can come next; after `wrap_input` the end marker follows every root, so empty trees need no condition; two witnesses |
| C113 | nulling elimination and parse trees | every new rule is an old one with marks for the symbols left out, no two the same; a tree of the new grammar becomes an old one by putting in a fixed tree of the empty string for each symbol left out (`Erasing`); new symbols of the split go back through `Folding` |
| C114 | retries with a byte source | the first byte of a retry is `mix` of a byte xor the attempt number; the image of `mix` by evaluation over all bytes, the share of an alternative covers three bytes in a row |
| C115 | `make_proper`, `wrap_input`, nulling elimination, `remove_unused_symbols` in a row, also after `load` and `load_advanced` | C107, C24, C113, C85 chained; symbols made by `wrap_input` are not nullable, so that one tree of the empty string per symbol is passed on |
| C116 | `rhs_closure_with_values` with wrapping sums (release profile) | invariant modulo 2^32; termination as in C11 since entries only get smaller; agreement with the debug profile; findings by witness |
| C117 | `errorSource`, the text that `cfg_regexp!` makes for an error; string literals after the Rust reference (`Spec/RustString.lean`) | origin of every reason by induction over the loops of the loader; values of literals with escapes are shorter than the literal |
| C118 | two runs of `binarize_and_eliminate_nulling_rules`, of the cycle passes, of `remove_unused_symbols` | results are fixed points: no nullable symbol within limit 2; cycle freedom (C35, C37); all symbols used makes the renumbering the identity |
| C119 | `make_lr0_fsm` as in C83; rightmost derivations and valid items after textbooks (`Spec/Viable.lean`) | items reached by moving and predicting are the valid items, by induction over rightmost derivations; nodes follow along walks. Violated for nonterminals (no links) and for rules that need two items |
| C120 | `retain`, `clear_rules`, `extend`, `with_sym_source` | counting copies in filtered lists; derivations from a symbol use reachable rules only |
| C121 | symbol sets, predict sets, matrices, usefulness, cycles, recursion, lengths | each result is fixed by its specification, which mentions the set of rules only |
| C122 | `cfg_from_hir`, `walk_hir` | the parts that cannot be translated are listed by a separate definition; an expression of the parser without them is plain and so translated (C65); with one of them the walk reaches it and panics, using the exact condition for sequence rules (C51) |
| C123 | `add_rule`, `History::binarize`, `dot` | the chain of parts (C71) with the history step of each part computed; the fresh left sides of the inner parts; limits other than 2 skip the step, so that all parts keep the origin (finding, by witness) |
| C124 | `LlParseTable::new`, `classify`, `wrap_input` | the parser is a separate step relation over stack and input that looks up the cells of the code's table; completeness by induction over derivations with a context that supplies the lookahead; soundness from the left sides in the cells (C46); determinism from C76; termination by induction over rest of input and stack height, since a cell entry has a finite run (reads a token or pops the symbol) and runs are unique |
| C125 | all modelled calls that change a `Cfg`, and all modelled analyses | a datatype of the calls with their preconditions (Spec/Session.lean); an invariant (symbols in range, limit respected, no excess names) kept by each call, from the specifications of the calls and a relation for the calls that only add symbols and rules; then induction over the sequence of calls. The preconditions are those whose violation makes the code panic, hang or break the invariant (C15, C16, C54, C85) |
| C126 | `limit_rhs_len`, `add_rule`, `binarize_and_eliminate_nulling_rules`, `wrap_input` | the chain of parts of a rule (C71) has a length given by a closed formula; sums over the rules; for the elimination a bound per split rule summed over the chain; the example reaches the bounds |
| C127 | `reverse` and all analyses named | from the specification proved for each analysis, since the specification of the reversed grammar is that of the grammar with the right sides reversed; nothing of the code of the analyses is used again |
| C128 | `Cycles::{cycle_free, remove_cycles, rewrite_cycles, cycle_participants}` | after the first changing call the object is *settled*: the answer is cached and no remaining rule lies on a cycle of the stored matrix; settled objects are fixed by all calls; induction over the sequence of calls |
| C129 | `SequencesToProductions::{add_sequence, rewrite}` called repeatedly | C77 restated beside arbitrary further productions over the old symbols and for any set of old symbols as terminals, then induction over the list, with the promised productions of the later rules as the further ones; order by permutation invariance of the specification |
| C130 | `Remap::{reorder_symbols, remove_unused_symbols}` and all analyses named | the specifications (derivations, reachability, …) are shown invariant under an injective renumbering of the symbols in use; the exactness theorem of each analysis carries this over to the computed results; closures by their minimality on both sides |
| C131 | `Random::random` with `Limits` | well-founded order on the states of the work-list: the retry counters at each length are bounded, the number of terminals is bounded by the limit, and without left recursion the fronts of sentential forms between two terminals form a finite tree; converse by a script that repeats the left recursion |
| C132 | `pick_rhs` with a contract of rand's `random_range` | the slices of C61 and the emptiness of the range `0..total` |
| C133 | `add_weight` with additions of an unsigned type in both profiles | induction over the list: sums are exact as long as they fit |
| C134 | `limit_rhs_len`, `Random::random` | simulation in both directions: work-lists agree up to replacing new symbols by what they abbreviate; the alternatives of old symbols agree in order and weight, new symbols have one rule of at least two symbols, so finitely many silent turns bring an old symbol to the front |
| C135 | `limit_rhs_len` and the analyses of C121 | each new symbol abbreviates a prefix of an old right side and has one rule; replacing abbreviations maps derivations of the split grammar to those before, so each analysis agrees by its exactness theorem |
| C136 | `add_rule`, `wrap_input`, precedenced rules, sequence rewriting and `rewrite_cycles` under a limit of 0 or 1 | `add_rule` has four cases; every other call is a program of `add_rule` and `next_sym`, so its run under the limit follows its run without a limit step by step until a rule that is too long; also gives C37 for every limit |
| C137 | `LexerMap` with its private tables before and after `compute` | `compute` reads the classes only; adding a class by C62 for the old and the new map |
| C138 | `minimal_distances` with the build profile as an argument (`Model/DistanceProfile.lean`) | each pass but the last lowers an entry of a row, also under wrapping sums; every step of a debug run that does not overflow is a step of the release run; the functions for the debug profile are shown equal to those of C87 |
| C139 | `binarize_and_eliminate_nulling_rules` followed by the analyses | the result has the productions of the split grammar with nullable symbols erased (C24), so both derive the same non-empty strings of symbols; then as in C135. That left sides derive non-empty strings is needed: C27 |
| C140 | `genetic.rs` (private, unused, unfinished) | derived orders compare keys; lexicographic combinations of total orders are total orders; elements inserted in order go to the end |
| C141 | the loader of `basic.rs` (as in C92) and histories | invariant of the loop over the rules: symbols for repetitions have exactly the rules of the repetition, only the rule of an alternative has an origin |
| C142 | `CfgRule::named`, `NamedCfgRule` | from the exact result of the comparison (C70); `NamedCfgRule::new` numbers the names in order |
| C143 | `Display for LoadError` (`Model/LoadMessage.lean`); the derived `Debug` of tokens is a parameter | every error of the loaders has no token or the reason `parse failed`; numbers end before the next character that is no digit |
| C144 | `LlParseTable::{new, classify}` after `limit_rhs_len` | FIRST, nullability and the conditions on right sides are carried over along the unfolding of new symbols; a cell is turned into positions among the alternatives of its symbol; witness for the change of class |
| C145 | `PrecedencedRuleBuilder`, `process_linked` of `AssignPrecedence` | invariant of the builder over the calls: the rules so far are, up to order, the old ones, those of the alternatives that are not grouped and the linking rules; the grouped ones are pending in order |
| C146 | `Debug for NamedCfgRule` (the values of the fields, not the text around them) | the shown names determine the names when none is `gensym`; exact result of the comparison from C70; witness with a symbol of that name |
| C147 | histories in `binarize_and_eliminate_nulling_rules` | the lists of rules with histories are exact: the split rules, then the shortened ones of each in order, filtered; origins of the parts of split rules as in C123; witness with two nullable symbols |
| C148 | histories in `SequencesToProductions::rewrite` | each step of `reduce` adds rules for the current left side with the current history and stacks sequences for new symbols only; the loop keeps that; witness with a given history |
| C149 | `Cycles::rewrite_cycles` | the translation map equals the representative function of C36; a rule counts as changed exactly when substituting changes it; adding rules within the limit appends them as they are |
| C150 | the calls of C115 after each other, and loading before | composition of C141 (or the records of C98), C147, the sublist kept by `make_proper`, the rules added by `wrap_input` and the renaming of C85 |
| C151 | `remove_cycles`, `rewrite_cycles`, terminals of the results | exact rules of the results (C35, C149); a derivation of terminals cannot pass a symbol of a cycle without a way out; two witnesses |
| C152 | `rewrite_cycles` followed by the analyses | replacing symbols by representatives maps derivations forward; each new rule is a derivation of the old grammar; terminals agree by C151; then as in C135 |
| C153 | the calls of C115, then `rewrite_cycles` | wrapped roots stand on no right side and stay so through splitting, elimination and renaming, hence lie on no cycle; then C36, C37, C149 and C109; from texts by C97 and C100 |
| C154 | `LlParseTable::new`, `classify` | a left-recursive rule lets the parser of C124, in front of a terminal that begins its strings, return to the same symbol on top of the stack; so it runs forever, against the termination in C124; two witnesses |
| C67 | printer followed by loader | exact loaded grammar by induction |
| C69–C70 | comparison | findings by witness |
| C71–C72 | histories | arithmetic; findings |
| C73–C74 | interner, rule builder | invariant over calls |
| C75–C91 | exact counterparts of properties that the code violates, and further laws (see the notes in `MANIFEST.json`) | as the property they refine |

### 3.1 Findings

Each is proved as a theorem named `Cnn_violated…` with a concrete witness.

* Symbols: `u32` sources saturate in release builds (C02); the last documented size panics (C75); a
  zero word in the binary format panics (C05).
* Bit sets: `is_empty`/`all` do not mean what they say (C08). The documentation of
  `rhs_closure_for_all` and `rhs_closure_for_any` is swapped.
* Splitting: limits 0 and 1 do not work (C15); `extend` ignores the limit (C16); dots of pieces can
  collide (C71); the split wrapping rule counts as a rule (C21).
* Nulling: nulling-only symbols stay on right sides without rules (C27).
* Usefulness: one pass is not enough (C32). Cycles: a root can lose its rules (C36); a stale cached
  answer (C38). A rule `A ::= A` is no cycle for the code (its comment says so), but gives infinitely
  many parse trees (C108), and nulling elimination makes such rules (C109). Recursion flags (C40).
* FIRST/FOLLOW/LL: C42, C44, C46, C47. The LL table has no end-of-input column, so ambiguous grammars
  are classified as LL(1) (C112). A parser driven by the table misses rules and can loop (C124). Splitting long
  rules can change the class of a symbol (C144).
* Printing a `NamedCfgRule` does not tell a symbol named `gensym` from one without a name (C146).
* Nulling elimination: a rule of two nullable symbols is shortened in two ways with one history that does not tell which symbol was left out (C147).
* Sequences: when a sequence has a history, the rules of helper symbols made for it have its origin, too (C148).
* Cycles: when all rules of a symbol lie on cycles, `remove_cycles` and `rewrite_cycles` remove them all and keep rules with the symbol on the right, so it becomes a terminal and an unproductive symbol becomes part of the language (C151).
* LL(1): the class `Ll1` does not exclude left recursion. `U ::= U` without a way out gets the class (C154_violated_unproductive), and with `S ::= b A`, `A ::= A | ε` the symbol `S` gets it, since the table has no column for the end of input (C154_violated_empty).
* LR(0): closure loses kernel items (C48). The automaton has transitions on terminals only, so
  viable prefixes with nonterminals lead nowhere (C119), and each call of `make_lr0_fsm` adds another augmenting rule.
* Sequences: huge bounds (C49, C51), `range(0..0)` (C52), rewriting onto a symbol that has rules
  (C78), two parse trees of the empty string for `Liberal` separators with minimum 0 (C102).
* Precedence: C53, C54; a level with left and right associative operators is ambiguous (C104). The example in the README omits `finalize`.
* `Recursion::minimal_distances` (C105): the first number is always 0 (the backward walk over `rhs[dot..]` numbers its dots from 0, so it writes 0 at the start of the row), and a recursion that derives no string panics.
* Remapping: C55, C56. Distances: C57, C58, and an unproductive symbol panics (C87). In release builds
  sums of weights wrap around, so that lengths and weights can become 0 (C116).
* Generation: stale negative states (C60); `Limits.negative_rule_attempts` is never read; an empty
  forbidden text loops; a zero total weight panics in the random source; retries with a `ByteSource`
  never give half of the bytes (C114). Limits do not stop left recursion, so generation can run for
  ever with a limit (C131); a byte source without bytes chooses alternatives of weight zero (C132);
  integer weights wrap around in release builds (C133).
* Under length limits other than 2 every part of a split rule keeps the whole history of the rule,
  so several rules have the same origin and the same dots (C123).
* Regular expressions: C62–C65, C91. A literal is the range of it and the next character.
* Loading: every text with a character that starts no token panics (C68).
* Advanced loading: a lexer as first declaration, two lexers, some literals and look-around panic
  (C95); errors carry the number of a token as line (C97), which `cfg_regexp!` relies on, but it uses the lines of
  other errors as token numbers too, so that strings with line breaks move errors or make it panic
  (C110); `cfg_regexp!` panics for every grammar without lexemes (C111), and puts reasons between quotes
  without escapes (C117); a rule named `__lex0` changes the meaning
  of the first literal (C99); a literal also accepts the next character (C100).
* Comparison: C69, C70. Sequence history: C72.

## 4. Trusted base

* Lean 4.33.0 kernel. Axioms: each theorem depends on at most `propext`,
  `Classical.choice`, `Quot.sound` (checked by `#print axioms`). No axioms of our own, no `sorry`, no
  `native_decide`, no `bv_decide`.
* The correspondence between the Rust text in `/repo` and the definitions in
  `Verif/Model` (by reading; every definition cites its source lines).
* External crates replaced by models or contracts:
  * `bit-vec`, `bit-matrix`: lists of booleans; `transitive_closure` as Warshall's algorithm;
  * `std` collections, sorting, `binary_search` (any position of an equal key), `char` arithmetic
    (surrogates excluded), `str::trim` (Unicode white space);
  * `elsa::FrozenIndexSet`: `insert_full` returns the index of an equal string or appends;
  * `tiny-earley`: the structure `Recognizer` with the contract `Recognizer.Correct` (reports whether
    the scanned terminals begin a sentence; has a parse tree exactly for sentences). The theorems
    hold for every recognizer that meets the contract; `correct_exists` shows that it can be met;
  * `regex-syntax`: its parser is not modelled, the tree (HIR) is the input; its invariants that we
    use (sorted non-overlapping class ranges) are hypotheses;
  * `rand`: `random_range(0..limit)` gives a value in the range and panics if it is empty (used in C132);
  * random sources: an arbitrary oracle; weights are exact numbers, not `f64`.
* Casts of lengths and indices to `u32` are taken as exact (inputs below 2^32 tokens).

## 5. What is modelled

| Crate | Modelled | Not modelled |
|---|---|---|
| `cfg-symbol` | sources, generators, (de)serialisation, interning (`Mapping`) | formatting |
| `cfg-grammar` | `cfg.rs` (of `Debug` the values shown), rule builder, bit sets, occurrence map, precedence, comparison | formatting |
| `cfg-history` | root nodes, linked nodes, dots, the Earley history | unused node kinds' payload formatting |
| `cfg-sequence` | builder, ranges, rewriting, separators | |
| `cfg-classify` | `useful.rs`, `cyclical.rs`, `recursive.rs`, `ll.rs`, `lr.rs` | `linear.rs`, `regular.rs` (empty files) |
| `cfg-predict-sets` | FIRST, FOLLOW, LAST, `first_set_for_string` | |
| `cfg-predict-distance` | forward and backward distances | |
| `cfg-symbol-bit-matrix` | matrices, remapping | |
| `cfg-generate` | `weighted/`, `genetic.rs` (private dead code, used by its own test only) | `Population::rhs_length` (`unimplemented!()`) |
| `cfg-regexp-logic` | classes, lexer map, translation | |
| `cfg-load` | `basic.rs`, `advanced.rs`, `string_interner.rs`; `regex_syntax::parse` is a parameter | `advanced_macro.rs`, printing of tokens |
| `cfg-regexp-macro` | `lib.rs` up to the source text of the result (`process.rs` returns a constant) | the source text of a parser; whether the compiler panics or reports an error for a malformed literal |
| `cfg-examples`, `cfg` | | examples, re-exports |

Also outside the model: memory use and running time, floating-point rounding, thread interleavings
(`Cfg` is single-threaded: `Rc`, `RefCell`).
