{"id": "C01", "title": "Every symbol a source hands out is new", "statement": "In any run of symbol-generating calls on one symbol source (single symbols, arrays of symbols, named symbols), no two returned symbols are equal, they are numbered 0,1,2,... in order of generation, and num_syms() equals the number generated, as long as the numeric range of the symbol type is not used up.", "quantifier": "every symbol width (u8, u16, u32), every sequence of generating calls of any length below the capacity", "why_tests_cant": "The sequence of calls is unbounded and freshness is relied on by every grammar transformation that invents symbols.", "anchors": ["cfg-symbol/src/source.rs: SymbolSource::next_sym, sym, with_names, num_syms", "cfg-symbol/src/symbol.rs: Symbol::usize"]}
{"id": "C02", "title": "Exhausting the symbol range is never silent", "statement": "When a symbol source runs out of numbers the call stops with a panic instead of handing out a symbol that was returned before.", "quantifier": "every symbol width, both build profiles (debug assertions on or off), every number of calls", "why_tests_cant": "The last symbol of a 32-bit source is 2^32-1 calls away; a test cannot get there.", "anchors": ["cfg-symbol/src/source.rs: SymbolSource::advance, next_sym"]}
{"id": "C03", "title": "Names stay attached to their symbols", "statement": "After any sequence of generating calls, asking for the name of a symbol returns exactly the name given when that symbol was generated, and a symbol generated without a name is reported as nameless and displayed as g<number>; later calls never change earlier names.", "quantifier": "every sequence of named and anonymous generating calls, every symbol generated in it", "why_tests_cant": "Depends on the whole call history.", "anchors": ["cfg-symbol/src/source.rs: next_sym, name_of, original_name_of, names"]}
{"id": "C04", "title": "Looking a symbol up by name", "statement": "The name map contains exactly the names that were given; each name maps to a symbol that carries that name, and when a name was given several times it maps to the most recently generated symbol with it.", "quantifier": "every sequence of generating calls, every string", "why_tests_cant": "Duplicates and interleavings are unbounded.", "anchors": ["cfg-symbol/src/source.rs: name_map"]}
{"id": "C05", "title": "Symbols survive serialisation and bad numbers are rejected", "statement": "Deserialising (miniserde) a serialised symbol gives the same symbol; deserialising a non-negative number n succeeds exactly when n is below the symbol type's maximum, and then yields the symbol with number n. In the binary (nanoserde) format reading back what was written gives the same symbol and leaves the rest of the bytes untouched.", "quantifier": "every symbol of every width, every 64-bit number, every following byte string", "why_tests_cant": "2^32 symbols and 2^64 inputs.", "anchors": ["cfg-symbol/src/symbol.rs: miniserde_impls, DeBin, SerBin"]}
{"id": "C06", "title": "Composition of symbol renumberings", "statement": "Translating a mapping by a second mapping composes them: the internal number of an external symbol becomes the second mapping's number of its old internal number (or none if either is missing), and if both mappings are consistent (internal->external->internal is the identity) the composite is consistent too.", "quantifier": "every pair of mappings of every size, including partial ones", "why_tests_cant": "Mappings are arbitrary tables.", "anchors": ["cfg-symbol/src/intern.rs: Mapping::translate"]}
{"id": "C07", "title": "Symbol sets classify symbols exactly", "statement": "For a grammar whose rules mention only its own symbols: the terminal set contains exactly the symbols that are not the left side of any rule; the nulling set exactly those with an empty rule; the used set exactly those occurring on some side of some rule; the unused set is its complement; iterating a set yields its members once each in increasing order; union and negation are the set operations. None of these panics.", "quantifier": "every well-formed grammar (any number of symbols and rules, any right-hand sides)", "why_tests_cant": "All grammars.", "anchors": ["cfg-grammar/src/symbol_bit_set.rs: SymbolBitSet::{terminal,nulling,used,unused,productive,subtract_productive,negate,iter,union,all}"]}
{"id": "C08", "title": "SymbolBitSet::is_empty tells whether the set is empty", "statement": "is_empty returns true exactly when no symbol is in the set.", "quantifier": "every symbol set", "why_tests_cant": "All sets; the name promises an equivalence.", "anchors": ["cfg-grammar/src/symbol_bit_set.rs: SymbolBitSet::is_empty"]}
{"id": "C09", "title": "Property propagation computes the least closed set", "statement": "rhs_closure in All mode turns a set into the least superset such that every rule with a non-empty right side whose symbols are all in the set has its left side in the set; in Any mode the same with 'some symbol'. It terminates and does not panic on well-formed grammars.", "quantifier": "every well-formed grammar, every initial set, both modes", "why_tests_cant": "Worklist algorithm over arbitrary cyclic rule graphs; correctness depends on every processing order the stack can produce.", "anchors": ["cfg-grammar/src/cfg.rs: rhs_closure, rhs_closure_for_all, rhs_closure_for_any", "cfg-grammar/src/occurence_map.rs: OccurenceMap::from_rules"]}
{"id": "C10", "title": "Propagation does not depend on rule order", "statement": "Reordering or duplicating rules does not change the set computed by rhs_closure.", "quantifier": "every pair of grammars with the same set of rules, every initial set, both modes", "why_tests_cant": "All permutations.", "anchors": ["cfg-grammar/src/cfg.rs: rhs_closure"]}
{"id": "C11", "title": "Weighted propagation computes minimal weights", "statement": "rhs_closure_with_values leaves, for every symbol, the least total weight of a string of initially weighted symbols derivable from it by rules with non-empty right sides (no value exactly when there is none). It terminates for every table, and does not panic when the sums fit in 32 bits.", "quantifier": "every well-formed grammar, every initial weight table", "why_tests_cant": "Shortest-derivation (Knuth) fixpoint on cyclic grammars.", "anchors": ["cfg-grammar/src/cfg.rs: rhs_closure_with_values"]}
{"id": "C12", "title": "A length limit bounds every stored right-hand side", "statement": "After limit_rhs_len(Some(n)) with n >= 2, and after any further sequence of rule additions, every stored rule has at most n symbols on the right; each add_rule call reports exactly the number of rules it appended.", "quantifier": "every grammar, every n >= 2, every sequence of further additions through add_rule / the rule builder / wrap_input", "why_tests_cant": "Any rule length and any history of additions.", "anchors": ["cfg-grammar/src/cfg.rs: limit_rhs_len, add_rule, rule_rhs_len_allowed_range, wrap_input", "cfg-grammar/src/rule_builder.rs: rhs"]}
{"id": "C13", "title": "Splitting long rules preserves the language", "statement": "After limit_rhs_len(Some(n)) with n >= 2, or add_rule under such a limit, every symbol that existed before derives exactly the same strings of previously existing symbols as before (respectively as if the unsplit rule had been added).", "quantifier": "every well-formed grammar, every n >= 2, every symbol, every string", "why_tests_cant": "Language equality over all strings.", "anchors": ["cfg-grammar/src/cfg.rs: limit_rhs_len, add_rule"]}
{"id": "C14", "title": "Limiting twice is the same as limiting once", "statement": "Calling limit_rhs_len with the same limit n >= 2 a second time changes nothing: same rules in the same order with the same histories, and no new symbols.", "quantifier": "every grammar, every n >= 2", "why_tests_cant": "The documentation answers 'Can I run this function twice? Yes, it is idempotent' for all grammars.", "anchors": ["cfg-grammar/src/cfg.rs: limit_rhs_len"]}
{"id": "C15", "title": "Limiting terminates and loses no rule for every limit", "statement": "limit_rhs_len returns for every limit the type allows, and every rule is still represented afterwards.", "quantifier": "every grammar, every limit including 0 and 1", "why_tests_cant": "A non-terminating case cannot be observed by a test that has to finish, and limits range over all of usize.", "anchors": ["cfg-grammar/src/cfg.rs: limit_rhs_len, add_rule"]}
{"id": "C16", "title": "The documented length invariant holds at all times", "statement": "Once a limit is set, every stored right-hand side is within the range reported by the grammar, whichever public method modified the rules afterwards.", "quantifier": "every sequence of public modifying calls after limit_rhs_len", "why_tests_cant": "An invariant over all call histories.", "anchors": ["cfg-grammar/src/cfg.rs: limit_rhs_len, extend, add_rule, rule_rhs_len_allowed_range"]}
{"id": "C17", "title": "Exact shape of a split rule", "statement": "Under limit n >= 2 a rule with m > n symbols is replaced by a left-nested chain: the first part holds the first n symbols, each next part holds the previous part's fresh symbol followed by up to n-1 further symbols, the last part has the original left side; reading the chain back gives the original right-hand side, and the number of parts is ceil((m-1)/(n-1)).", "quantifier": "every rule length m, every limit n >= 2", "why_tests_cant": "Closed formula for all m and n.", "anchors": ["cfg-grammar/src/cfg.rs: add_rule"]}
{"id": "C18", "title": "Reversing a grammar reverses its language", "statement": "After reverse() each symbol derives exactly the reversals of the strings it derived before; reversing twice restores the rules.", "quantifier": "every grammar, every symbol, every string", "why_tests_cant": "Language-level statement.", "anchors": ["cfg-grammar/src/cfg.rs: reverse"]}
{"id": "C19", "title": "Sorting, deduplicating and merging rules", "statement": "sort() permutes the rules into (lhs, rhs) order keeping equal ones in order; dedup() after sort() leaves exactly one rule per distinct (lhs, rhs); both keep every symbol's language. extend() yields a grammar whose rules are those of both.", "quantifier": "every grammar (pair of grammars)", "why_tests_cant": "All rule lists.", "anchors": ["cfg-grammar/src/cfg.rs: sort, dedup, extend, retain"]}
{"id": "C20", "title": "Wrapping the input", "statement": "wrap_input() replaces each root r by a fresh root whose language is exactly start_of_input . L(r) . end_of_input with fresh marker symbols; old symbols keep their language, with or without a length limit of at least 2; the wrapped-root records name the actual symbols.", "quantifier": "every well-formed grammar, every list of roots, every admissible limit", "why_tests_cant": "Language equality over all strings and all grammars.", "anchors": ["cfg-grammar/src/cfg.rs: wrap_input"]}
{"id": "C21", "title": "is_empty reports whether there are user rules", "statement": "A grammar whose only rules were created by wrapping its roots counts as empty, whatever length limit is in force; a grammar with any other rule does not.", "quantifier": "every grammar, with and without a limit", "why_tests_cant": "Interaction of two features for all grammars.", "anchors": ["cfg-grammar/src/cfg.rs: is_empty, wrap_input"]}
{"id": "C22", "title": "Dot columns", "statement": "column(c) yields one entry per rule in rule order, whose pre-dot symbol is the symbol just before position c and post-dot symbol the symbol at position c, where they exist.", "quantifier": "every grammar, every column number up to usize::MAX", "why_tests_cant": "Every column, including 0 (wrapping subtraction) and columns past the end.", "anchors": ["cfg-grammar/src/cfg.rs: column"]}
{"id": "C23", "title": "Nullable symbols are found exactly", "statement": "Propagating the nulling symbols with rhs_closure_for_all marks exactly the symbols that derive the empty string.", "quantifier": "every well-formed grammar, every symbol", "why_tests_cant": "Semantic characterisation by derivations of any length.", "anchors": ["cfg-grammar/src/symbol_bit_set.rs: nulling", "cfg-grammar/src/cfg.rs: rhs_closure_for_all, nulling_symbols"]}
{"id": "C24", "title": "Eliminating nulling rules preserves the language minus the empty string", "statement": "After binarize_and_eliminate_nulling_rules every original symbol derives exactly the same non-empty strings of original terminals as before, and derives the empty string from no symbol.", "quantifier": "every well-formed grammar, every symbol, every string", "why_tests_cant": "Language equality.", "anchors": ["cfg-grammar/src/cfg.rs: binarize_and_eliminate_nulling_rules"]}
{"id": "C25", "title": "Result of nulling elimination is binary and free of empty rules", "statement": "After binarize_and_eliminate_nulling_rules every rule has one or two symbols on the right.", "quantifier": "every well-formed grammar", "why_tests_cant": "All grammars.", "anchors": ["cfg-grammar/src/cfg.rs: binarize_and_eliminate_nulling_rules"]}
{"id": "C26", "title": "The nulling subgrammar captures exactly the empty derivations", "statement": "In the grammar returned by binarize_and_eliminate_nulling_rules a symbol derives the empty string exactly when it did in the original grammar.", "quantifier": "every well-formed grammar, every original symbol", "why_tests_cant": "Semantic, derivations of any length.", "anchors": ["cfg-grammar/src/cfg.rs: binarize_and_eliminate_nulling_rules"]}
{"id": "C27", "title": "Nulling elimination does not turn nonterminals into terminals", "statement": "After binarize_and_eliminate_nulling_rules every symbol on the right of a remaining rule that was the left side of some rule before is still the left side of some rule (so the library's own terminal set classifies it as before).", "quantifier": "every well-formed grammar", "why_tests_cant": "The code comment claims it for all grammars.", "anchors": ["cfg-grammar/src/cfg.rs: binarize_and_eliminate_nulling_rules (comments at the final retain)"]}
{"id": "C28", "title": "Productive symbols are found exactly", "statement": "The usefulness analysis marks a used symbol productive exactly when it derives some string of terminals.", "quantifier": "every well-formed grammar, every symbol", "why_tests_cant": "Semantic, all derivations.", "anchors": ["cfg-classify/src/useful.rs: productive_syms, Usefulness::new, productivity"]}
{"id": "C29", "title": "Reachable symbols are found exactly", "statement": "After reachable(roots), a used symbol is marked reachable exactly when it occurs in some string derivable from a root.", "quantifier": "every well-formed grammar, every root list", "why_tests_cant": "Semantic, all derivations; relies on a transitive closure.", "anchors": ["cfg-classify/src/useful.rs: reachable, reachable_syms", "cfg-symbol-bit-matrix/src/symbol_bit_matrix.rs: reachability_matrix, reflexive"]}
{"id": "C30", "title": "all_useful agrees with the per-rule report", "statement": "all_useful() holds exactly when no rule is reported as useless.", "quantifier": "every well-formed grammar, every root list", "why_tests_cant": "One is computed on symbols, the other on rules.", "anchors": ["cfg-classify/src/useful.rs: all_useful, useless_rules, usefulness"]}
{"id": "C31", "title": "Removing useless rules preserves the language", "statement": "remove_useless_rules / make_proper keep, for every root, exactly the same set of derivable terminal strings.", "quantifier": "every well-formed grammar, every root, every string", "why_tests_cant": "Language equality.", "anchors": ["cfg-classify/src/useful.rs: remove_useless_rules", "cfg-classify/src/lib.rs: make_proper"]}
{"id": "C32", "title": "make_proper leaves a proper grammar", "statement": "After make_proper every remaining rule is useful: reachable from a root and productive in the resulting grammar; and make_proper reports true exactly when nothing had to be removed.", "quantifier": "every well-formed grammar", "why_tests_cant": "One pass has to suffice for all grammars.", "anchors": ["cfg-classify/src/lib.rs: make_proper", "cfg-classify/src/useful.rs: remove_useless_rules"]}
{"id": "C33", "title": "Derivation matrices", "statement": "The reachability matrix holds at (a, b) exactly when b occurs in a string derivable from a in one or more steps; the unit-derivation matrix exactly when a derives the single symbol b through a chain of one-symbol rules A ::= B with A different from B.", "quantifier": "every well-formed grammar, every pair of symbols", "why_tests_cant": "Transitive closure over arbitrary graphs.", "anchors": ["cfg-symbol-bit-matrix/src/symbol_bit_matrix.rs: direct_derivation_matrix, reachability_matrix, unit_derivation_matrix, transitive_closure"]}
{"id": "C34", "title": "Cycle detection is exact", "statement": "cycle_free() returns true exactly when no symbol derives itself through a chain of one-symbol rules between different symbols; the rules reported as cycle participants are exactly the one-symbol rules lying on such a chain (plus self-loops at symbols that lie on one).", "quantifier": "every well-formed grammar", "why_tests_cant": "All graphs.", "anchors": ["cfg-classify/src/cyclical.rs: cycle_free, classify, cycle_participants"]}
{"id": "C35", "title": "remove_cycles makes the grammar cycle free and only removes participants", "statement": "After remove_cycles a fresh analysis reports the grammar as cycle free, and exactly the reported participants were removed.", "quantifier": "every well-formed grammar", "why_tests_cant": "All graphs.", "anchors": ["cfg-classify/src/cyclical.rs: remove_cycles"]}
{"id": "C36", "title": "rewrite_cycles preserves the language", "statement": "After rewrite_cycles every root derives the same terminal strings as before.", "quantifier": "every well-formed grammar, every root, every string", "why_tests_cant": "Language equality; documented as preserving the language.", "anchors": ["cfg-classify/src/cyclical.rs: rewrite_cycles"]}
{"id": "C37", "title": "rewrite_cycles makes the grammar cycle free", "statement": "After rewrite_cycles a fresh analysis reports the grammar as cycle free.", "quantifier": "every well-formed grammar; under a length limit of 0 or 1, whenever rewrite_cycles returns", "why_tests_cant": "Collapsing components could create new cycles; must hold for all graphs.", "anchors": ["cfg-classify/src/cyclical.rs: rewrite_cycles"]}
{"id": "C38", "title": "Cycle analysis answers stay valid after removal", "statement": "Asking the same analysis object whether the grammar is cycle free after it removed the cycles returns true.", "quantifier": "every well-formed grammar", "why_tests_cant": "Call histories on one object.", "anchors": ["cfg-classify/src/cyclical.rs: Cycles::cycle_free, remove_cycles"]}
{"id": "C39", "title": "Recursion report", "statement": "A rule is listed as recursive exactly when some symbol of its right-hand side derives (in any number of steps) a string containing the rule's left side.", "quantifier": "every well-formed grammar, every rule", "why_tests_cant": "Semantic, all derivations.", "anchors": ["cfg-classify/src/recursive.rs: rule_recursion, recursive_rules"]}
{"id": "C40", "title": "Left recursion means left recursion", "statement": "A rule is flagged left-recursive exactly when its left side derives, starting with that rule, a string beginning with the left side.", "quantifier": "every well-formed grammar, every rule", "why_tests_cant": "Semantic; hidden left recursion through nullable symbols.", "anchors": ["cfg-classify/src/recursive.rs: rule_recursion"]}
{"id": "C41", "title": "FIRST sets are exact", "statement": "FIRST(A) lists exactly the terminals a such that A derives a string beginning with a, sorted without duplicates, and its empty flag is set exactly when A derives the empty string; the computation terminates.", "quantifier": "every grammar, every nonterminal", "why_tests_cant": "Fixpoint computed by repeated passes; semantic characterisation.", "anchors": ["cfg-predict-sets/src/first.rs: FirstSets::new, collect_from, process_rule, first_set_collect"]}
{"id": "C42", "title": "FIRST of a string is exact", "statement": "first_set_for_string returns exactly the terminals that can begin a string derived from the given symbol string, with the empty flag exactly when it derives the empty string.", "quantifier": "every grammar, every symbol string", "why_tests_cant": "All strings with any mix of nullable symbols.", "anchors": ["cfg-predict-sets/src/first.rs: first_set_for_string"]}
{"id": "C43", "title": "FOLLOW sets list exactly the following terminals", "statement": "FOLLOW(A) lists exactly the terminals a such that some nonterminal derives a string in which A is immediately followed by a, sorted without duplicates; the computation terminates without panicking.", "quantifier": "every grammar, every nonterminal", "why_tests_cant": "Fixpoint; semantic characterisation.", "anchors": ["cfg-predict-sets/src/follow.rs: FollowSets::new"]}
{"id": "C44", "title": "FOLLOW sets mark end of input", "statement": "FOLLOW(A) carries the end-of-input flag exactly when a root derives a string ending with A.", "quantifier": "every grammar, every nonterminal", "why_tests_cant": "Semantic, all derivations.", "anchors": ["cfg-predict-sets/src/follow.rs: FollowSets::new"]}
{"id": "C45", "title": "LAST sets are exact", "statement": "LAST(A) lists exactly the terminals a such that A derives a string ending with a, with the empty flag exactly when A derives the empty string.", "quantifier": "every grammar, every nonterminal", "why_tests_cant": "Fixpoint over the reversed grammar.", "anchors": ["cfg-predict-sets/src/last.rs: LastSets::new"]}
{"id": "C46", "title": "LL(1) table cells follow the documented rule", "statement": "Cell (A, a) of the LL parse table contains rule A ::= w exactly when a is in FIRST(w), or w derives the empty string and a is in FOLLOW(A).", "quantifier": "every grammar, every cell", "why_tests_cant": "Documented 'if and only if' for all grammars.", "anchors": ["cfg-classify/src/ll.rs: LlParseTable::new"]}
{"id": "C47", "title": "LL classification reports conflicts", "statement": "A nonterminal is classified as LL(1) exactly when no cell in its row holds two rules.", "quantifier": "every parse table", "why_tests_cant": "All tables.", "anchors": ["cfg-classify/src/ll.rs: LlParseTable::classify"]}
{"id": "C48", "title": "LR(0) closure is the item closure", "statement": "The closure of an item set contains the given items and, for every item with a nonterminal after the dot, all that nonterminal's rules with the dot at the start, and nothing else; it terminates.", "quantifier": "every grammar, every item set", "why_tests_cant": "All grammars; documented algorithm.", "anchors": ["cfg-classify/src/lr.rs: Lr0Closure::closure"]}
{"id": "C49", "title": "Sequence rules generate exactly the promised repetitions", "statement": "After rewriting a sequence rule with element x, range start..=end (or open-ended) and separator kind (none, proper, trailing, liberal), the left side derives exactly the strings obtained from between start and end repetitions of x joined with the separator as promised, for a left side with no other rules.", "quantifier": "every range with start <= end <= 2^31 (or open), every separator kind, every destination grammar and element symbol", "why_tests_cant": "Divide-and-conquer rewriting by powers of two with memoisation; must hold for every range.", "anchors": ["cfg-sequence/src/rewrite.rs: SequencesToProductions::{rewrite,reduce,recurse}", "cfg-sequence/src/lib.rs: Separator"]}
{"id": "C50", "title": "Sequence rewriting terminates and stays small", "statement": "Rewriting a sequence terminates; the number of rules produced is bounded by a logarithmic function of the bounds.", "quantifier": "every range with start <= end <= 2^31 (or open), every separator kind; no length limit or one of at least two symbols (C136 covers smaller ones)", "why_tests_cant": "Every range.", "anchors": ["cfg-sequence/src/rewrite.rs: SequencesToProductions::rewrite"]}
{"id": "C51", "title": "Every non-empty range is accepted", "statement": "Rewriting succeeds for every range with start <= end, and an inverted range is rejected.", "quantifier": "every u32 start, every optional u32 end", "why_tests_cant": "2^64 ranges, overflow at the far end.", "anchors": ["cfg-sequence/src/rewrite.rs: reduce, rewrite"]}
{"id": "C52", "title": "Rust ranges convert to repetition bounds", "statement": "range(a..b), range(a..=b), range(a..), range(..b) select exactly the repetition counts contained in the Rust range.", "quantifier": "every pair of u32 bounds and every bound kind", "why_tests_cant": "All bounds including 0 and u32::MAX.", "anchors": ["cfg-sequence/src/builder.rs: range"]}
{"id": "C53", "title": "Precedence rules only restrict the ambiguous grammar", "statement": "Every string derivable from the left side of a finalised precedenced rule is derivable from the plain ambiguous grammar that lists all the alternatives directly.", "quantifier": "every sequence of alternatives, associativities and precedence levels, every string", "why_tests_cant": "Language inclusion over all builder programs.", "anchors": ["cfg-grammar/src/precedenced_rule.rs: PrecedencedRuleBuilder"]}
{"id": "C54", "title": "Precedence levels are respected", "statement": "In the grammar produced by a finalised precedenced rule, an alternative given at some level can contain, at its recursive positions, only alternatives of the same level (once, on the side allowed by its associativity) or of tighter levels, except inside a Group alternative.", "quantifier": "every builder program", "why_tests_cant": "Structural claim about all programs.", "anchors": ["cfg-grammar/src/precedenced_rule.rs: rhs_with_history, lower_precedence, finalize"]}
{"id": "C55", "title": "Symbol renumbering is an isomorphism", "statement": "reorder_symbols renames all rules, roots, wrapped roots and names by one bijection on the symbols, sorted by the given comparison with ties in the old order, so each renamed symbol derives exactly the renamed strings; the returned mapping's two directions are inverse to each other.", "quantifier": "every well-formed grammar, every comparison function that is a total preorder", "why_tests_cant": "All grammars and orders.", "anchors": ["cfg-symbol-bit-matrix/src/remap_symbols.rs: reorder_symbols, remap_symbols", "cfg-symbol/src/source.rs: remap_symbols"]}
{"id": "C56", "title": "Removing unused symbols is safe", "statement": "remove_unused_symbols leaves exactly the used symbols, numbered 0..k-1 in their old order, with the language unchanged up to renaming, and works for every grammar.", "quantifier": "every well-formed grammar including one without rules and one with unused roots", "why_tests_cant": "All grammars including degenerate ones.", "anchors": ["cfg-symbol-bit-matrix/src/remap_symbols.rs: remove_unused_symbols", "cfg-symbol/src/source.rs: truncate"]}
{"id": "C57", "title": "Minimal sentence lengths", "statement": "The minimal-distance analysis computes for each symbol the length of its shortest terminal string, and none if there is none.", "quantifier": "every well-formed grammar, every symbol", "why_tests_cant": "Minimum over infinitely many strings.", "anchors": ["cfg-predict-distance/src/lib.rs: minimal_sentence_lengths"]}
{"id": "C58", "title": "Minimal distances do not depend on rule order and are aligned with dots", "statement": "The distances reported for a rule are the same for any order of the rules, and are reported at the dot position they belong to in both directions.", "quantifier": "every grammar, every set of predicted dots, both directions", "why_tests_cant": "All rule orders.", "anchors": ["cfg-predict-distance/src/lib.rs: immediate_process_dot, transitive, update_rule_distances"]}
{"id": "C59", "title": "Random generation only produces sentences", "statement": "When random generation without negative rules returns a result, the symbols are all terminals, form a string derivable from the start symbol, number at most the limit, and the characters are the images of those symbols; whatever the random source returns.", "quantifier": "every grammar, start symbol, limit, character map, and every random source", "why_tests_cant": "Every random stream.", "anchors": ["cfg-generate/src/weighted/random.rs: random", "cfg-generate/src/weighted/weighted_rhs_by_lhs.rs: pick_rhs, weighted"]}
{"id": "C60", "title": "Random generation respects negative rules", "statement": "With negative rules, every returned string is still derivable and contains no forbidden text at a position where the negative symbol was expanded.", "quantifier": "every grammar, negative rule set and random source", "why_tests_cant": "Backtracking over every random stream.", "anchors": ["cfg-generate/src/weighted/random.rs: random"]}
{"id": "C61", "title": "Weighted choice picks only existing alternatives", "statement": "Choosing an alternative for a nonterminal returns one of its right-hand sides for every random number in range, and an alternative is chosen exactly on its half-open slice of the cumulative weights (except at exact boundaries).", "quantifier": "every weight table, every random number", "why_tests_cant": "All reals/floats.", "anchors": ["cfg-generate/src/weighted/weighted_rhs_by_lhs.rs: add_weight, pick_rhs"]}
{"id": "C62", "title": "Lexer map lookups return exactly the matching classes", "statement": "For a computed lexer map, looking a character up returns exactly the symbols whose character ranges contain it.", "quantifier": "every set of classes with ranges, every Unicode character", "why_tests_cant": "1.1 million characters times all class sets.", "anchors": ["cfg-regexp-logic/src/lib.rs: LexerMap::compute, get"]}
{"id": "C63", "title": "A literal matches only itself", "statement": "The class made from a literal byte or character contains just that character.", "quantifier": "every byte, every character", "why_tests_cant": "All values including the extremes.", "anchors": ["cfg-regexp-logic/src/lib.rs: From<u8>, From<char>, LexerMap::compute"]}
{"id": "C64", "title": "Lexer map computation never panics", "statement": "Computing the lexer map succeeds for every set of classes obtained from regular expressions.", "quantifier": "every character class", "why_tests_cant": "Boundary ranges around 255, the surrogates and the last character.", "anchors": ["cfg-regexp-logic/src/lib.rs: LexerMap::compute"]}
{"id": "C65", "title": "Translating a regular expression preserves its language", "statement": "The grammar built from a regular expression (without look-around) derives from its root exactly the class strings described by the expression.", "quantifier": "every regular expression tree, every string", "why_tests_cant": "All expressions, nested repetition with any bounds.", "anchors": ["cfg-regexp-logic/src/lib.rs: cfg_from_hir, walk_hir"]}
{"id": "C66", "title": "Tokeniser covers the input", "statement": "The BNF tokeniser terminates on every input; on success the tokens are exactly the maximal identifiers and punctuation in order with whitespace dropped, and on failure it reports the line and column of the first character that cannot start a token.", "quantifier": "every input string", "why_tests_cant": "All strings.", "anchors": ["cfg-load/src/basic.rs: Lexer"]}
{"id": "C67", "title": "Printing and loading a grammar is a round trip", "statement": "Loading the BNF text printed for a grammar with at least one rule and distinct identifier names gives the same rules up to the renumbering of symbols in order of first occurrence, with the first rule's left side as root.", "quantifier": "every grammar whose used symbols have distinct identifier names", "why_tests_cant": "All grammars.", "anchors": ["cfg-load/src/basic.rs: Cfg::load, to_bnf"]}
{"id": "C68", "title": "Loading never panics", "statement": "Loading returns either a grammar or an error for every input text.", "quantifier": "every input string", "why_tests_cant": "All strings.", "anchors": ["cfg-load/src/basic.rs: Cfg::load"]}
{"id": "C69", "title": "Grammar comparison is equality of rule sets", "statement": "equivalent() holds exactly when the two grammars have the same rules (same left sides and right sides, by symbol number, in the same order).", "quantifier": "every pair of grammars", "why_tests_cant": "All pairs.", "anchors": ["cfg-grammar/src/compare.rs: equivalent"]}
{"id": "C70", "title": "Named rule comparison is an equivalence", "statement": "Equality of named rules is reflexive, symmetric and transitive, as the type's Eq promises.", "quantifier": "every triple of named rules", "why_tests_cant": "All triples.", "anchors": ["cfg-grammar/src/cfg.rs: NamedCfgRule PartialEq/Eq"]}
{"id": "C71", "title": "Dots of split rules trace back to the original rule", "statement": "When a rule is split under limit 2, the dot positions recorded in the parts' histories identify distinct positions of the original rule.", "quantifier": "every rule length", "why_tests_cant": "Every length.", "anchors": ["cfg-history/src/earley/mod.rs: binarize, dot", "cfg-grammar/src/cfg.rs: add_rule"]}
{"id": "C72", "title": "Sequence rewriting history is recorded", "statement": "Applying a sequence-rewriting history step changes the recorded dots the way the rewriting routine computes them.", "quantifier": "every history and every sequence step", "why_tests_cant": "All histories.", "anchors": ["cfg-history/src/earley/mod.rs: process_linked, rewrite_sequence"]}
{"id": "C73", "title": "String interner round trip", "statement": "Interning a string returns the same id for the same string and different ids for different strings, and resolving an id returns the string.", "quantifier": "every sequence of intern calls", "why_tests_cant": "All histories.", "anchors": ["cfg-load/src/string_interner.rs: StringInterner"]}
{"id": "C74", "title": "Rule builder stores what it is told", "statement": "Each rhs call on the rule builder under a left side appends a rule (or its split form) with that left side and right side, the explicitly given history if any is pending, else a fresh root history; the pending history is used once and is dropped when a new left side is started.", "quantifier": "every builder program", "why_tests_cant": "All programs of builder calls.", "anchors": ["cfg-grammar/src/rule_builder.rs: RuleBuilder"]}
{"id": "C75", "title": "Truncating a symbol source", "statement": "truncate(n) succeeds for every n in the documented range 1..=T::MAX and panics outside it; afterwards num_syms() is n, the names of the first n symbols are kept and the others are gone, and the next generated symbol has number n.", "quantifier": "every symbol width, every source state, every usize n", "why_tests_cant": "The documented range has 2^32 points and the end points are special.", "anchors": ["cfg-symbol/src/source.rs: SymbolSource::truncate"]}
{"id": "C76", "title": "LL classification spreads conflicts along reachability", "statement": "A nonterminal gets a class exactly when its row of the table has a non-empty cell; the class is ContextFree exactly when it reaches (reflexively) a nonterminal with a cell holding at least two rules, otherwise LL(1).", "quantifier": "every grammar", "why_tests_cant": "All grammars; combines the table with a closure over all rules.", "anchors": ["cfg-classify/src/ll.rs: LlParseTable::classify"]}
{"id": "C77", "title": "Sequence rules with ranges that fit 31 bits generate the promised repetitions", "statement": "Rewriting a sequence rule whose range fits (every repetition count that is rounded to a power of two is at most 2^31) succeeds; the terminals are the old ones without the left side; every old symbol then generates exactly what it generates with one production of the left side per number of repetitions in the range.", "quantifier": "every range that fits, every separator kind, every destination grammar, element and left side without other rules, both build profiles; no length limit or one of at least two symbols (C136 covers smaller ones)", "why_tests_cant": "Divide-and-conquer rewriting by powers of two with memoisation; must hold for every range.", "anchors": ["cfg-sequence/src/rewrite.rs: SequencesToProductions::{rewrite,reduce,recurse}"]}
{"id": "C78", "title": "A sequence rule adds to a left side that has other rules", "statement": "If the left side of a sequence rule already has rules, it generates afterwards the union: what it generates with the promised repetitions as additional productions.", "quantifier": "every range that fits, every separator kind, every destination grammar", "why_tests_cant": "Every grammar and range.", "anchors": ["cfg-sequence/src/rewrite.rs: SequencesToProductions::reduce"]}
{"id": "C79", "title": "Sequence builder stores what it is told", "statement": "A program of sequence builder calls panics exactly when an rhs call has no left side or no range given since the previous rule; otherwise it adds one sequence rule per rhs call, in order, with the last left side, the separator given for that left side (else none), the range given since the previous rule and the pending history.", "quantifier": "every program of builder calls", "why_tests_cant": "All programs of builder calls.", "anchors": ["cfg-sequence/src/builder.rs: SequenceRuleBuilder"]}
{"id": "C80", "title": "Precedenced rule: exact language", "statement": "After finalising a precedenced rule, every old symbol generates, over the user's terminals, exactly the strings with a derivation in which each occurrence of the left side inside an alternative is filled by an alternative of an allowed level: the leftmost (rightmost, if right associative) occurrence by the same level or tighter, the others by strictly tighter levels (at the tightest level: by the tightest level), and inside Group alternatives by any level. The old rules and roots are kept.", "quantifier": "every well-formed grammar, every builder program over its symbols, every old symbol and string; no length limit or one of at least two symbols (C136 covers smaller ones)", "why_tests_cant": "Language equality over all builder programs.", "anchors": ["cfg-grammar/src/precedenced_rule.rs: PrecedencedRuleBuilder"]}
{"id": "C81", "title": "Precedenced rule: terminals", "statement": "After finalising a precedenced rule, the terminals are the old ones except the left side, plus the fresh symbol of the tightest level exactly when no alternative was given before the first lower_precedence call.", "quantifier": "every well-formed grammar, every builder program over its symbols; no length limit or one of at least two symbols (C136 covers smaller ones)", "why_tests_cant": "All builder programs.", "anchors": ["cfg-grammar/src/precedenced_rule.rs: PrecedencedRuleBuilder"]}
{"id": "C82", "title": "LR(0) closure: exact result", "statement": "closure terminates on every set of items of the grammar's rules. Its result has at most one item per rule: with the dot at the start if the rule's left side is expanded, otherwise the given item. A nonterminal is expanded if it follows the dot of a given item or starts a rule, without a given item, of an expanded symbol.", "quantifier": "every well-formed grammar, every set of items of its rules", "why_tests_cant": "All grammars and item sets.", "anchors": ["cfg-classify/src/lr.rs: Lr0ClosureBuilder::closure"]}
{"id": "C83", "title": "LR(0) state machine", "statement": "make_lr0_fsm terminates for every grammar and start symbol. It adds one rule for a fresh start symbol; node 0 is the item closure of that rule; nodes are pairwise different as item sets; a node has a link through a symbol exactly when it is a terminal after the dot of one of its items, the link is unique and leads to the node of the (one item per rule) closure of the moved items; every other node is linked from an earlier node.", "quantifier": "every well-formed grammar with a limit absent or at least two, every start symbol", "why_tests_cant": "All grammars; termination over all item sets.", "anchors": ["cfg-classify/src/lr.rs: Lr0FsmBuilder::make_lr0_fsm"]}
{"id": "C84", "title": "Renumbering within the length limit is an isomorphism", "statement": "reorder_symbols on a grammar whose rules are within its length limit succeeds, renames rules (with their histories), roots, wrapped roots and names by one bijection that follows the comparison with ties in the old order, each renamed symbol derives exactly the renamed strings, and the accumulated mapping stays a pair of inverse tables composed with the bijection.", "quantifier": "every well-formed grammar within its length limit, every consistent mapping so far, every comparison that is a total preorder", "why_tests_cant": "All grammars and orders.", "anchors": ["cfg-symbol-bit-matrix/src/remap_symbols.rs: Remap::new, reorder_symbols, remap_symbols"]}
{"id": "C85", "title": "Removing unused symbols of a grammar with rules", "statement": "remove_unused_symbols on a grammar with at least one rule, within its length limit, leaves exactly the used symbols numbered from 0 in their old order with names and languages kept; the mapping sends every used symbol to its new number and back; used roots stay symbols of the grammar.", "quantifier": "every well-formed grammar with a rule, within its length limit", "why_tests_cant": "All grammars.", "anchors": ["cfg-symbol-bit-matrix/src/remap_symbols.rs: remove_unused_symbols", "cfg-symbol/src/source.rs: truncate"]}
{"id": "C86", "title": "Minimal sentence lengths in range", "statement": "If K^(n+1) < 2^32 for n symbols and right sides of at most K symbols, the analysis terminates without overflow and gives each symbol the length of its shortest terminal string, and no length exactly when there is none.", "quantifier": "every well-formed grammar within the bound, every symbol", "why_tests_cant": "Minimum over infinitely many strings.", "anchors": ["cfg-predict-distance/src/lib.rs: minimal_sentence_lengths"]}
{"id": "C87", "title": "Distance calls return walks", "statement": "Any sequence of minimal_distances calls in any directions with dots inside of their rules terminates without panic when right-side symbols derive strings and lengths are in range. After forward calls every reported distance is the cost of a forward walk from that position to one of the dots, positions up to a dot in its own rule have a distance of at most the sum of shortest lengths between, and the dot itself has distance 0.", "quantifier": "every such grammar, every sequence of calls, every set of dots", "why_tests_cant": "All call sequences; walks are unbounded.", "anchors": ["cfg-predict-distance/src/lib.rs: minimal_distances, immediate_process_dot, transitive, update_rule_distances"]}
{"id": "C88", "title": "Every sentence can be generated", "statement": "If there is room for a number between the cumulative weights of each alternative, then for every terminal string of the start symbol within the limit there are random numbers, each inside of the range it is asked for, on which random returns that string and its characters.", "quantifier": "every well-formed grammar with such weights, every terminal string of the start symbol, every map from symbols to characters", "why_tests_cant": "All strings of the language.", "anchors": ["cfg-generate/src/weighted/random.rs: random", "cfg-generate/src/weighted/weighted_rhs_by_lhs.rs: pick_rhs"]}
{"id": "C89", "title": "Lexer map of a translated expression", "statement": "The lexer map made with a translated regular expression (without look-around and byte 255, with repetition bounds that fit) can be computed exactly if every range of its classes that starts below 128 ends below 256 and is followed by a character; then looking up a character gives exactly the symbols of the literal bytes and classes of the expression whose stored ranges contain it.", "quantifier": "every such expression, every character", "why_tests_cant": "All expressions and characters.", "anchors": ["cfg-regexp-logic/src/lib.rs: cfg_from_hir, LexerMap::compute, LexerMap::get"]}
{"id": "C90", "title": "Texts accepted through the lexer map", "statement": "Reading each character of a text as one of the symbols the computed lexer map gives for it, the grammar of a translated expression accepts the text if and only if its characters lie one by one in the stored ranges of the letters (a byte b is stored as the range b to b+1) of a string described by the expression.", "quantifier": "every plain expression whose map can be computed, every text", "why_tests_cant": "All texts.", "anchors": ["cfg-regexp-logic/src/lib.rs: cfg_from_hir, LexerMap::get"]}
{"id": "C91", "title": "Texts accepted are the texts described", "statement": "Reading each character of a text as one of the symbols the computed lexer map gives for it, the grammar of a translated expression accepts exactly the texts that the regular expression describes.", "quantifier": "every plain expression whose map can be computed, every text", "why_tests_cant": "All expressions and texts.", "anchors": ["cfg-regexp-logic/src/lib.rs: cfg_from_hir, LexerMap::get"]}
{"id": "C92", "title": "Loading a BNF text gives a grammar of its language", "statement": "A text of at least one rule is loaded as a grammar in which distinct names are distinct symbols carrying these names, the root is the first left side, the terminals are the names without rules, and each name derives exactly the strings that the text describes, with x+ as one or more and x* as any number of x and () as nothing; any other sequence of tokens gives an error.", "quantifier": "every text, every correct recognizer, both build profiles", "why_tests_cant": "All texts.", "anchors": ["cfg-load/src/basic.rs: Cfg::load"]}
{"id": "C93", "title": "The tokeniser of the advanced loader is exact", "statement": "Every text that consists of tokens and blanks is split into exactly its tokens (longest identifiers, lexer as a keyword, strings with backslash escapes), each with the one-based line and column where it starts; any other text gives the tokens before the first place where no token starts and then one error token with that place, or, for a string that does not end, the end of the text.", "quantifier": "every text", "why_tests_cant": "Unbounded texts: escapes, newlines inside strings and errors at any position.", "anchors": ["cfg-load/src/advanced.rs: Lexer::tokenize, Lexer::eat"]}
{"id": "C94", "title": "Syntax errors of load_advanced point at the first token that cannot occur", "statement": "If the tokens of a text do not start any valid file, the error is 'parse failed' with the first token that no valid file has at this place and its line and column (as u32); else, if the text cannot be tokenised, it is 'failed to tokenize' with that place; else, if the text stops too early, it is 'parse failed: no result'; a grammar is only returned for a valid file, whose declarations are unique.", "quantifier": "every text, every correct recognizer, every regular expression parser, both build profiles", "why_tests_cant": "All texts and all valid continuations of a prefix.", "anchors": ["cfg-load/src/advanced.rs: Cfg::load_advanced"]}
{"id": "C95", "title": "load_advanced never panics", "statement": "Loading any text, with any regular expression parser, returns a grammar or an error; it never panics.", "quantifier": "every text, every correct recognizer, every regular expression parser, both build profiles", "why_tests_cant": "All texts.", "anchors": ["cfg-load/src/advanced.rs: Cfg::load_advanced, Translator"]}
{"id": "C96", "title": "The grammar loaded by load_advanced", "statement": "A valid file without reasons to reject it is loaded as a grammar in which distinct names are distinct symbols, the root is the first left side of the file, and every symbol derives exactly the strings that the clauses of the parser and of the lexer part give it, a call of Regexp standing for the strings its expression describes.", "quantifier": "every valid file whose expressions the translation accepts, every correct recognizer, every regular expression parser, both build profiles", "why_tests_cant": "All files.", "anchors": ["cfg-load/src/advanced.rs: Cfg::load_advanced"]}
{"id": "C97", "title": "Semantic errors of load_advanced give the first reason and where it is", "statement": "A valid file that has a reason to be rejected (a call of anything but Regexp, an invalid expression, a rule of the lexer that is one of the parser, ...) is rejected with the message of the first reason in reading order and the line and column of the token it is about.", "quantifier": "every valid file, every correct recognizer, every regular expression parser, both build profiles", "why_tests_cant": "All files with any number of reasons at any place.", "anchors": ["cfg-load/src/advanced.rs: Cfg::load_advanced"]}
{"id": "C98", "title": "The tables returned by load_advanced", "statement": "The table of symbols has exactly the names of the file with their symbols, and the actions, the origins of the rules and the set of lexemes are those written in the file.", "quantifier": "every valid file whose expressions the translation accepts, every correct recognizer, both build profiles", "why_tests_cant": "All files.", "anchors": ["cfg-load/src/advanced.rs: AdvancedGrammar"]}
{"id": "C99", "title": "Names of an advanced grammar mean what is written", "statement": "Each name written in a file derives exactly what its clauses describe, where a string literal stands for its own characters and nothing else; names made up by the loader for literals never interfere with written ones.", "quantifier": "every valid file, every name", "why_tests_cant": "All files, including those with names that look like generated ones.", "anchors": ["cfg-load/src/advanced.rs: Cfg::load_advanced"]}
{"id": "C100", "title": "Texts accepted by an advanced grammar are the texts described", "statement": "The lexer map of a loaded file can be computed, and reading each character of a text through it, the grammar accepts under each written name exactly the texts that the file describes.", "quantifier": "every valid file, every name, every text", "why_tests_cant": "All files and texts.", "anchors": ["cfg-load/src/advanced.rs: Cfg::load_advanced", "cfg-regexp-logic/src/lib.rs: LexerMap"]}
{"id": "C101", "title": "Splitting long rules keeps parse trees", "statement": "Limiting the length of right sides, or adding a rule to a grammar with a limit, gives every string exactly as many parse trees under every old symbol as the unsplit rules do; so an unambiguous grammar stays unambiguous and an ambiguous one ambiguous.", "quantifier": "every grammar, every limit of at least 2, every old symbol, every string, counting infinitely many trees too", "why_tests_cant": "Numbers of derivations of all strings of all grammars, including infinite ones.", "anchors": ["cfg-grammar/src/cfg.rs: Cfg::limit_rhs_len, Cfg::add_rule"]}
{"id": "C102", "title": "A rewritten sequence is parsed in one way", "statement": "Rewriting a sequence rule makes exactly one parse tree for every way to read a string as one of the promised repetitions of the element and separator; in particular the result is unambiguous if these are terminals.", "quantifier": "every grammar, every range, every separator, every string", "why_tests_cant": "All ranges (with blocks split by powers of two) and all strings; ambiguity needs every pair of trees.", "anchors": ["cfg-sequence/src/rewrite.rs: SequencesToProductions::rewrite, reduce"]}
{"id": "C103", "title": "Precedenced rules keep exactly the parse trees that respect precedence", "statement": "After a precedenced rule is finalised, every string over the user's terminals has, for every old symbol, as many parse trees as there are parse trees of the plain grammar (all alternatives as rules of the left side) in which each operand is filled by an alternative of an allowed level; in particular never more than the plain grammar, and none is duplicated by the internal level symbols.", "quantifier": "every grammar, every left side, every sequence of builder calls, every symbol, every string; no length limit or one of at least two symbols (C136 covers smaller ones)", "why_tests_cant": "Duplicated or missing internal rules keep the language and only change the number of trees of some strings; tests check acceptance.", "anchors": ["cfg-grammar/src/precedenced_rule.rs: PrecedencedRuleBuilder"]}
{"id": "C104", "title": "Operator tables are unambiguous", "statement": "A precedenced rule made of atoms, bracketed forms, and prefix, infix and postfix operators, each with a token of its own, gives every string at most one parse tree.", "quantifier": "every grammar, every operator table (any number of levels, operators and bracketed forms), every string", "why_tests_cant": "Ambiguity needs all pairs of trees of all strings.", "anchors": ["cfg-grammar/src/precedenced_rule.rs: PrecedencedRuleBuilder::rhs_with_history, lower_precedence, finalize"]}
{"id": "C105", "title": "Distances to recursion", "statement": "Recursion::minimal_distances returns, lists the rules and kinds that recursive_rules lists, and gives for each rule the least length of text before the first recursive symbol and behind the last one.", "quantifier": "every grammar whose symbols are in range", "why_tests_cant": "The distances are least values over all derivations of all symbols of a rule.", "anchors": ["cfg-classify/src/recursive.rs: Recursion::minimal_distances, RecursiveRulesWithDistances::next", "cfg-predict-distance/src/lib.rs: MinimalDistance::minimal_distances"]}
{"id": "C106", "title": "The text of a grammar determines its rules", "statement": "Two grammars over the same symbol names have the same stringify_to_bnf text exactly if they have the same rules in the same order; if no name has a blank or a line end, the text determines the names of the symbols in rules as well.", "quantifier": "every pair of grammars, names with any characters", "why_tests_cant": "The text could be read in several ways for names made to look like the text of rules; tests print a few grammars.", "anchors": ["cfg-grammar/src/cfg.rs: Cfg::stringify_to_bnf", "cfg-symbol/src/source.rs: SymbolSource::name_of"]}
{"id": "C107", "title": "Reversing, sorting, wrapping, cleaning and renumbering keep parse trees", "statement": "Reversing, sorting, wrapping of the input, removal of useless rules, making a grammar proper, reordering symbols and removing unused symbols keep the number of parse trees of every string: of the mirrored or renamed string under the corresponding symbol, and for cleaning under every productive root.", "quantifier": "every grammar, every symbol, every string, counting infinitely many trees too; no length limit or one of at least two symbols (C136 covers smaller ones)", "why_tests_cant": "Lost or duplicated equal rules keep the language and only change the number of trees.", "anchors": ["cfg-grammar/src/cfg.rs: Cfg::reverse, Cfg::sort, Cfg::wrap_input", "cfg-classify/src/useful.rs: Usefulness::remove_useless_rules", "cfg-classify/src/lib.rs: CfgClassifyExt::make_proper", "cfg-symbol-bit-matrix/src/remap_symbols.rs: Remap::reorder_symbols, Remap::remove_unused_symbols"]}
{"id": "C108", "title": "Cycle freeness decides whether strings have finitely many parse trees", "statement": "In a grammar without empty rules, cycle_free() returns true only if every string has finitely many parse trees; it returns false only if some symbol on a cycle has infinitely many parse trees of every string that it derives.", "quantifier": "every well-formed grammar without empty rules, every symbol, every string", "why_tests_cant": "Infinity of the number of trees is no finite observation.", "anchors": ["cfg-classify/src/cyclical.rs: cycle_free, cycle_participants"]}
{"id": "C109", "title": "Rewritten cycles leave finitely many parse trees", "statement": "After rewrite_cycles(), applied to a grammar without empty rules or to the result of eliminating nulling rules, every string has finitely many parse trees.", "quantifier": "every well-formed grammar, every symbol, every string", "why_tests_cant": "Infinity of the number of trees is no finite observation.", "anchors": ["cfg-classify/src/cyclical.rs: rewrite_cycles", "cfg-grammar/src/cfg.rs: binarize_and_eliminate_nulling_rules"]}
{"id": "C110", "title": "cfg_regexp! shows errors at the token they are about", "statement": "When the text in a call of cfg_regexp! cannot be loaded, the call expands to compile_error! with the reason, at the span of the first token that does not fit, of the token that the loader does not know, or of the token that the first semantic reason is about. An incomplete grammar is about no token. The macro does not panic.", "quantifier": "every token stream with any nesting of groups and any spans, every correct recognizer, every regular expression parser, both build profiles", "why_tests_cant": "All token streams, with the error at any place; compile-fail tests fix a few.", "anchors": ["cfg-regexp-macro/src/lib.rs: cfg_regexp, flatten"]}
{"id": "C111", "title": "cfg_regexp! expands every grammar that load_advanced accepts", "statement": "A call of cfg_regexp! with a grammar that load_advanced accepts expands to a parser, without a panic.", "quantifier": "every token stream, every correct recognizer, every regular expression parser, both build profiles", "why_tests_cant": "All accepted grammars.", "anchors": ["cfg-regexp-macro/src/lib.rs: cfg_regexp", "cfg-grammar/src/symbol_bit_set.rs: SymbolBitSet::is_empty"]}
{"id": "C112", "title": "Nonterminals classified as LL(1) are unambiguous", "statement": "If LlParseTable::classify() gives a nonterminal the class Ll1, every string has at most one parse tree with this nonterminal at the root.", "quantifier": "every well-formed grammar, every nonterminal, every string", "why_tests_cant": "Unambiguity is a statement about all strings and all trees.", "anchors": ["cfg-classify/src/ll.rs: LlParseTable::new, LlParseTable::classify"]}
{"id": "C113", "title": "Eliminating nulling rules adds no parse trees", "statement": "binarize_and_eliminate_nulling_rules() gives no string of terminals more parse trees than it had; if the empty string has at most one parse tree for each symbol, every non-empty string keeps its number of parse trees. In the returned grammar of nulling rules the empty string has as many parse trees for each symbol as before.", "quantifier": "every well-formed grammar, every symbol, every string of terminals", "why_tests_cant": "Numbers of parse trees for all strings cannot be compared by running samples.", "anchors": ["cfg-grammar/src/cfg.rs: Cfg::binarize_and_eliminate_nulling_rules"]}
{"id": "C114", "title": "Retries with a byte source can make every choice", "statement": "After mutate_start with some attempt number a ByteSource gives each of the values that it gives for the bytes 0 to 255, so that what pick_rhs can choose for a symbol, it can also choose in a retry at a negative rule.", "quantifier": "every grammar with weights, every symbol, every state of the byte source, every attempt number", "why_tests_cant": "All weights and all states of the source; the values left out are hit by chance only if an alternative is thin.", "anchors": ["cfg-generate/src/weighted/random.rs: ByteSource::mutate_start", "cfg-generate/src/weighted/weighted_rhs_by_lhs.rs: WeightedRhsByLhs::pick_rhs"]}
{"id": "C115", "title": "Preparing a grammar for a recogniser keeps its strings and parse trees", "statement": "make_proper(), wrap_input(), binarize_and_eliminate_nulling_rules() and remove_unused_symbols(), called one after the other on a grammar with productive roots, leave rules with one or two symbols and no unused symbol. Each root derives the start marker, a string and the end marker exactly if the old root derived the string, with no more parse trees, and as many if the empty string has one tree for each symbol. A BNF text goes through loading and these calls with the strings that its first name stands for. A file for load_advanced goes through them with the texts that its first name describes (for files as in C100, with its reading of literals).", "quantifier": "every well-formed grammar without a length limit whose roots are productive, every string; every BNF text; every file for load_advanced as in C100", "why_tests_cant": "The calls are tested one at a time; what one leaves behind (unused or nullable roots, new symbols, renumbering) meets the next for all grammars.", "anchors": ["cfg-grammar/src/cfg.rs: Cfg::wrap_input, Cfg::binarize_and_eliminate_nulling_rules", "cfg-classify/src/lib.rs: CfgClassifyExt::make_proper", "cfg-symbol-bit-matrix/src/remap_symbols.rs: Remap::remove_unused_symbols", "cfg-load/src/basic.rs: Cfg::load", "cfg-load/src/advanced.rs: Cfg::load_advanced"]}
{"id": "C116", "title": "Weights are least in release builds too", "statement": "In a release build rhs_closure_with_values() gives every symbol the least weight of the strings with weights that it derives, and none to a symbol that derives no such string; the shortest sentence lengths follow it.", "quantifier": "every well-formed grammar, every table of u32 weights with one entry per symbol", "why_tests_cant": "Sums beyond 2^32 wrap silently in release builds; tests run in debug builds with small weights.", "anchors": ["cfg-grammar/src/cfg.rs: Cfg::rhs_closure_with_values", "cfg-predict-distance/src/lib.rs: MinimalDistance::minimal_sentence_lengths"]}
{"id": "C117", "title": "cfg_regexp! shows the reason of an error", "statement": "When cfg_regexp! reports an error, the source text that it makes is a call of compile_error! with one string literal, whose value is the reason given by the loader.", "quantifier": "every token stream with any nesting of groups and any spans, every correct recognizer, every regular expression parser, both build profiles", "why_tests_cant": "Reasons hold text of the user; compile-fail tests fix a few.", "anchors": ["cfg-regexp-macro/src/lib.rs: cfg_regexp", "cfg-load/src/advanced.rs: CfgLoadAdvancedExt::load_advanced"]}
{"id": "C118", "title": "Cleaning passes change nothing the second time", "statement": "Eliminating nulling rules, removing or rewriting cycles, and removing unused symbols are each stable: run on their own result they leave the grammar exactly as it is, and the second elimination returns a grammar without rules. After either cycle pass, a fresh analysis followed by either cycle pass changes nothing.", "quantifier": "every well-formed grammar (without a limit or with one of at least two symbols for rewriting; within its length limit, with a rule and used roots for renumbering)", "why_tests_cant": "Tests run each pass once on a few grammars.", "anchors": ["cfg-grammar/src/cfg.rs: Cfg::binarize_and_eliminate_nulling_rules", "cfg-classify/src/cyclical.rs: Cycles::remove_cycles, rewrite_cycles", "cfg-symbol-bit-matrix/src/remap_symbols.rs: Remap::remove_unused_symbols"]}
{"id": "C119", "title": "The LR(0) machine reads viable prefixes", "statement": "A string of symbols leads from the first node of the machine made by make_lr0_fsm to another node exactly if it is a viable prefix of a rightmost derivation, and the items of that node are exactly the items valid for the string.", "quantifier": "every well-formed grammar whose symbols are productive, every start symbol, every string", "why_tests_cant": "Item sets of a few small grammars say nothing about all prefixes; both ways the machine differs from the definition need particular rules.", "anchors": ["cfg-classify/src/lr.rs: Lr0FsmBuilder::make_lr0_fsm, Lr0ClosureBuilder::closure, advance"]}
{"id": "C120", "title": "Removing and adding rules by hand", "statement": "retain keeps exactly the copies of the rules that meet the predicate, in order, and adds no strings; symbols that do not reach a removed rule lose none; retaining twice is retaining both, in any order. After clear_rules every symbol stands for itself only. extend adds the other grammar's rules; moving rules out and back keeps all languages. All of them leave symbols, names, roots and limit alone, and a grammar made from a symbol source has exactly its symbols and names.", "quantifier": "every grammar, every predicate, every string", "why_tests_cant": "Tests filter a few grammars and look at the rules, not at languages.", "anchors": ["cfg-grammar/src/cfg.rs: Cfg::retain, clear_rules, extend, with_sym_source"]}
{"id": "C121", "title": "Analyses depend only on the set of rules", "statement": "Two grammars with as many symbols and the same rules, whatever their order, repetitions, histories and names, get equal symbol sets, FIRST, LAST and (with the same roots) FOLLOW sets, derivation and reachability matrices, usefulness, answers about cycles, kinds of recursion of the same rule and minimal sentence lengths. So sorting a grammar and removing repeated rules changes no analysis.", "quantifier": "every well-formed grammar, every other grammar with the same rules, every list of roots", "why_tests_cant": "Tests run each analysis on one order of the rules.", "anchors": ["cfg-grammar/src/symbol_bit_set.rs: terminal, nulling, used, rhs closures", "cfg-symbol-bit-matrix/src/symbol_bit_matrix.rs: direct_derivation_matrix, reachability_matrix, unit_derivation_matrix", "cfg-predict-sets/src/first.rs: FirstSets::new", "cfg-predict-sets/src/follow.rs: FollowSets::new", "cfg-classify/src/useful.rs: Usefulness::new", "cfg-classify/src/cyclical.rs: cycle_free", "cfg-classify/src/recursive.rs: recursive_rules", "cfg-predict-distance/src/lib.rs: minimal_sentence_lengths"]}
{"id": "C122", "title": "Exactly which regular expressions are translated", "statement": "With debug checks, from_regexp panics for a parsed expression if and only if some part of it is look-around, a literal byte 255, or a repetition whose bounds are inverted or too large for the sequence rules (a count to be rounded up to a power of two above 2^31). For every other parsed expression it returns a grammar and a lexer map. It always stops.", "quantifier": "every parsed expression: all nestings of literals, classes, repetitions, groups, concatenations and alternations", "why_tests_cant": "Tests translate a few expressions; none has look-around inside a group or bounds near the limit.", "anchors": ["cfg-regexp-logic/src/lib.rs: cfg_from_hir, walk_hir", "cfg-sequence/src/rewrite.rs: rewrite, reduce"]}
{"id": "C123", "title": "Only one part of a split rule has its origin", "statement": "When a rule that is too long for the limit is added, exactly one of the rules made from it, the one with its left side, has the origin of the rule; the other parts have no origin. Every recorded dot of a part names a position of the rule or nothing. Weight, sequence details and the mark of eliminated symbols are kept by every part.", "quantifier": "every grammar with a length limit, every rule of three or more symbols", "why_tests_cant": "Tests look at the right sides of the parts; which part carries the origin shows only in a parser that runs actions.", "anchors": ["cfg-grammar/src/cfg.rs: Cfg::add_rule", "cfg-history/src/earley/mod.rs: History::binarize, dot, at_dot", "cfg-history/src/earley/rule_dot.rs: RuleDot::none"]}
{"id": "C124", "title": "The LL(1) table drives a parser", "statement": "A predictive parser that replaces the symbol on top of its stack by a rule in the cell of LlParseTable for it and the next token, started with a root above the end mark of wrap_input, reads exactly the strings of the root with the end mark behind them. If the root is classified as LL(1), the parser never has a choice and always stops.", "quantifier": "every well-formed grammar, every root, every input", "why_tests_cant": "A table that lacks an entry or has one too many shows only with the input that needs the cell; runs that do not stop need an input that enters the loop.", "anchors": ["cfg-classify/src/ll.rs: LlParseTable::new, classify", "cfg-grammar/src/cfg.rs: Cfg::wrap_input", "cfg-predict-sets/src/first.rs: first_set_for_string"]}
{"id": "C125", "title": "Every session of valid calls returns and keeps the grammar sound", "statement": "Starting from a new grammar, any sequence of calls that change it (symbols, roots, rules, builders, sequence rules, precedenced rules, length limits, sorting, filtering, reversing, extending, wrapping, elimination of nulling rules, removal of useless rules, removal and rewriting of cycles, reordering and removing symbols, making an LR(0) automaton), with arguments that are valid when the call is made, returns without panicking. Afterwards rules, roots and wrapped roots consist of symbols of the grammar, rules respect the length limit, no name is left over, and every analysis returns.", "quantifier": "every finite sequence of calls with valid arguments", "why_tests_cant": "Whether some order of twenty-two kinds of calls leaves a grammar on which a later call panics cannot be tried out: sequences and arguments are unbounded.", "anchors": ["cfg-grammar/src/cfg.rs: Cfg", "cfg-grammar/src/rule_builder.rs: RuleBuilder", "cfg-sequence/src/rewrite.rs: SequencesToProductions", "cfg-grammar/src/precedenced_rule.rs: PrecedencedRuleBuilder", "cfg-classify/src/cyclical.rs: Cycles", "cfg-classify/src/useful.rs: Usefulness", "cfg-symbol-bit-matrix/src/remap_symbols.rs: Remap"]}
{"id": "C126", "title": "How much the transformations add", "statement": "Limiting right sides to n symbols turns a rule of m symbols into exactly 1 rule if m <= n and otherwise into 1 + ceil((m-n)/(n-1)) rules, with one new symbol and one more position for each rule beyond the first; add_rule under a limit adds as much and returns the number of rules. Binarizing and eliminating nullable symbols leaves no rule of an empty rule, at most one of a unit rule and at most 3(m-1) of a rule of m >= 2 symbols, adds m-2 symbols for it, and the nulling grammar has at most as many rules as there are split rules. wrap_input adds per root 3 symbols and 1 rule, or 4 symbols and 2 rules under the limit 2.", "quantifier": "every grammar, limit of at least 2, rule and list of roots", "why_tests_cant": "Blow-up bounds concern rules of every length; a test measures a few.", "anchors": ["cfg-grammar/src/cfg.rs: limit_rhs_len, add_rule, binarize_and_eliminate_nulling_rules, wrap_input"]}
{"id": "C127", "title": "Analyses of a reversed grammar mirror those of the grammar", "statement": "For the grammar returned by reverse: terminal, nonterminal, nulling and productive symbols, the reachability and unit derivation matrices, usefulness for any roots, cycle-freeness and minimal sentence lengths are the same as for the grammar; FIRST sets are the LAST sets of the grammar and the other way round; the recursive rules are the reversed recursive rules in the same order, with left and right recursion exchanged.", "quantifier": "every grammar with symbols in range", "why_tests_cant": "Relates two runs of every analysis on all grammars; tests compare the two runs for chosen grammars.", "anchors": ["cfg-grammar/src/cfg.rs: reverse", "cfg-predict-sets/src/lib.rs: FirstSets, LastSets", "cfg-classify/src/recursive.rs: RecursiveRules", "cfg-classify/src/useful.rs: Usefulness", "cfg-classify/src/cyclical.rs: Cycles"]}
{"id": "C128", "title": "Using one Cycles object repeatedly", "statement": "For any sequence of calls of cycle_free, remove_cycles and rewrite_cycles on one Cycles object: all calls return; cycle_free always answers for the grammar with which the object was made; the first call that changes the grammar determines it, later calls change nothing; afterwards no rule is listed as cycle participant and all rules are listed as the others.", "quantifier": "every grammar and every finite sequence of calls; no length limit or one of at least two symbols (C136 covers smaller ones)", "why_tests_cant": "The object caches its answer and keeps a matrix of the old grammar; whether stale data is ever used depends on the order of unboundedly many calls.", "anchors": ["cfg-classify/src/cyclical.rs: Cycles"]}
{"id": "C129", "title": "Several sequence rules", "statement": "Adding any number of sequence rules to a grammar, one after another, returns; the terminals afterwards are the old ones that are no left side of a sequence rule; every old symbol generates exactly what it generates when all repetitions promised by all sequence rules are added as productions, also when sequence rules share left sides or refer to one another; the order of the sequence rules does not change the languages. A sequence rule that is rewritten to direct recursion (at least one element, no upper bound, no separator or a proper one) must be the only definition of its left side; C78 shows that this is needed.", "quantifier": "every grammar, every finite list of sequence rules with symbols in range and bounds as in C49, both build profiles; no length limit or one of at least two symbols (C136 covers smaller ones)", "why_tests_cant": "Sequence rules can nest and share symbols in unboundedly many ways; tests add one or two.", "anchors": ["cfg-sequence/src/rewrite.rs: SequencesToProductions", "cfg-sequence/src/ext.rs: sequence"]}
{"id": "C130", "title": "Analyses of a renumbered grammar are the renumbered analyses", "statement": "reorder_symbols (for any total comparison) and remove_unused_symbols return a grammar whose symbols are renumbered by an injective map. For every such pair of grammars the analyses correspond under the map: terminal, nulling and unused symbols, sets propagated by rhs_closure_for_all and rhs_closure_for_any, the direct derivation, reachability and unit derivation matrices, usefulness for corresponding roots, cycle-freeness, FIRST, LAST and FOLLOW sets with their lists, minimal sentence lengths, the recursive rules with their kinds (up to order), the cells of the LL(1) table (up to order) and the LL classes.", "quantifier": "every grammar with symbols in range, every injective renumbering of the symbols in use", "why_tests_cant": "Metamorphic relation over all grammars and all permutations of symbols; tests try a few permutations.", "anchors": ["cfg-symbol-bit-matrix/src/remap_symbols.rs: Remap", "cfg-predict-sets/src/lib.rs", "cfg-classify/src/recursive.rs: RecursiveRules", "cfg-classify/src/useful.rs: Usefulness", "cfg-classify/src/cyclical.rs: Cycles"]}
{"id": "C131", "title": "Generation with a limit returns", "statement": "With a limit on the number of terminals, random generation returns (a string or an error) after a number of turns that does not depend on the random numbers, for every random source whose calls return and whatever negative rules are given, when no symbol that can be reached from the start is left recursive (derives itself behind negative symbols only). The condition is needed: when a left recursive symbol can come to the front within the limit, there are random numbers that make generation run for any number of turns, because the limit counts terminals only.", "quantifier": "every grammar, start symbol, limit, random source, set of negative rules", "why_tests_cant": "A run that never returns cannot be observed by a test, and the bound must hold for all random sources.", "anchors": ["cfg-generate/src/weighted/random.rs: random", "cfg-generate/src/weighted/random.rs: Limits"]}
{"id": "C132", "title": "Weights of zero", "statement": "A choice between alternatives never panics with a source made from rand, and an alternative of weight zero is never chosen. False as stated: it panics exactly when the symbol has two or more alternatives and all of them weigh zero (rand does not sample from an empty range), and a byte source that has no bytes left chooses the first alternative even if it weighs zero. An alternative of weight zero is chosen only if the value drawn is exactly the sum of the weights before it.", "quantifier": "every grammar, weights, random value", "why_tests_cant": "Zero weights and boundary values have probability zero under a random source; tests miss them.", "anchors": ["cfg-generate/src/weighted/weighted_rhs_by_lhs.rs: pick_rhs", "cfg-generate/src/weighted/random.rs: GenRange for R"]}
{"id": "C133", "title": "Tables with integer weights", "statement": "A table of alternatives with integer weights (WeightedRhsByLhs of an unsigned type) gives the same choices as the table with exact weights. In debug builds the table can be made exactly when the sum of the weights of each left side fits the type, and making it panics otherwise. False in release builds: sums wrap around, so that alternatives cannot be chosen at all.", "quantifier": "every list of weighted alternatives, every unsigned type", "why_tests_cant": "Overflow needs sums beyond the type, for all lists of weights.", "anchors": ["cfg-generate/src/weighted/weighted_rhs_by_lhs.rs: add_weight", "cfg-generate/src/weighted/weight.rs: Weight"]}
{"id": "C134", "title": "Splitting long rules does not change what is generated", "statement": "limit_rhs_len keeps the outcome of random generation: with the same random numbers, limits and negative rules, generation from the split grammar returns exactly the symbols and the text, or the error, that generation from the grammar returns, and runs for ever or panics exactly if that does. In particular the weights and the order of alternatives survive splitting, and choices for new symbols use no random numbers.", "quantifier": "every grammar, limit of at least two symbols or none, random source, start symbol, limit and list of negative rules on symbols of the grammar", "why_tests_cant": "A statement on pairs of runs of unbounded length over all grammars and random sources; no test compares generation before and after splitting.", "anchors": ["cfg-grammar/src/cfg.rs: limit_rhs_len", "cfg-grammar/src/cfg.rs: add_rule", "cfg-generate/src/weighted/random.rs: random", "cfg-generate/src/weighted/weighted_rhs_by_lhs.rs: pick_rhs"]}
{"id": "C135", "title": "Analyses of a grammar whose long rules are split", "statement": "limit_rhs_len keeps the analyses of the symbols the grammar had before: the terminal symbols, the left sides of empty rules and the unused symbols are the same sets (no new symbol is in any of them), sets propagated by rhs_closure_for_all and rhs_closure_for_any from old symbols, the reachability and unit derivation matrices, productivity, reachability from the roots and cycle-freeness agree on old symbols, and old symbols have the same FIRST, LAST and FOLLOW sets and minimal sentence lengths.", "quantifier": "every well-formed grammar, limit of at least two symbols or none, set of old symbols and list of old roots; for sentence lengths, grammars in the range where they cannot overflow", "why_tests_cant": "Relates the results of a dozen analyses on infinitely many pairs of grammars; tests run single analyses on single grammars and never on a grammar before and after splitting.", "anchors": ["cfg-grammar/src/cfg.rs: limit_rhs_len", "cfg-symbol-bit-matrix/src/symbol_bit_matrix.rs: reachability_matrix", "cfg-predict-sets/src/follow.rs: FollowSets::new", "cfg-classify/src/useful.rs: Usefulness", "cfg-predict-distance/src/lib.rs: minimal_sentence_lengths"]}
{"id": "C136", "title": "Length limits of zero and one symbol", "statement": "Under a limit of one symbol add_rule runs forever for a rule of two or more symbols and stores a shorter one unchanged; under a limit of zero it runs forever for every rule with a symbol and drops a rule without symbols. wrap_input then returns only if there is no root. Adding rules, wrapping, precedenced rules, rewriting of sequences and of cycles under these limits either never return or give the same result as without a limit, except that under the limit zero rules with an empty right side are lost.", "quantifier": "every grammar with a limit of zero or one, every rule, every precedence program, every list of sequence rules, both build profiles", "why_tests_cant": "That a call never returns cannot be observed by a test, and no test sets such a limit.", "anchors": ["cfg-grammar/src/cfg.rs: limit_rhs_len, add_rule, wrap_input", "cfg-grammar/src/precedenced_rule.rs: PrecedencedRuleBuilder", "cfg-sequence/src/rewrite.rs: SequencesToProductions", "cfg-classify/src/cyclical.rs: rewrite_cycles"]}
{"id": "C137", "title": "Recomputing lexer maps", "statement": "What compute does depends on the classes only: tables of an earlier run are replaced, computing twice gives the same map as computing once, and the classes are kept. Adding a class with a symbol of its own and computing again adds this symbol to the answers for the characters of the class and changes no other answer. Before the first compute looking up an ASCII character panics and any other character is in no class.", "quantifier": "every lexer map, every earlier content of its tables, every added class whose ranges do not overlap and whose symbol is new (for the effect of adding), every character", "why_tests_cant": "The tables are private and depend on the calls before; tests compute each map once.", "anchors": ["cfg-regexp-logic/src/lib.rs: LexerMap::compute, get"]}
{"id": "C138", "title": "Distance calls stop in both build profiles", "statement": "Any sequence of minimal_distances calls with dots inside of their rules stops: every call returns or panics. In release builds the calls return whenever every symbol of a right side derives some string, however long its strings are, with one row for each rule, one entry for each position and 32-bit numbers. What the calls return in a debug build they return in a release build, so the reported distances are costs of walks there too when the lengths are in range.", "quantifier": "every well-formed grammar, every sequence of calls in any directions with dots inside of their rules, both build profiles", "why_tests_cant": "Termination under wrapping sums needs an argument for all grammars; no test has lengths that do not fit 32 bits.", "anchors": ["cfg-predict-distance/src/lib.rs: MinimalDistance::minimal_distances"]}
{"id": "C139", "title": "Analyses of a grammar whose nulling rules are eliminated", "statement": "If every left side derives a non-empty string, binarize_and_eliminate_nulling_rules() keeps the terminals, reachability between the symbols that were there, the symbols reported as reachable, and FOLLOW sets; FIRST and LAST sets keep their terminals and lose the mark for the empty string; minimal sentence lengths become the least lengths of non-empty strings. Cycle detection on the result sees cycles through empty strings: if it reports none, no two symbols of the grammar before derive each other; if it reports some, a symbol of the grammar before derives itself.", "quantifier": "every well-formed grammar where every left side derives a non-empty string of terminals, every list of roots", "why_tests_cant": "Tests compare the rules of the result for a few grammars, not what other analyses say about it.", "anchors": ["cfg-grammar/src/cfg.rs: Cfg::binarize_and_eliminate_nulling_rules", "cfg-predict-sets/src/lib.rs: first_sets, last_sets, follow_sets", "cfg-classify/src/cyclical.rs: cycle_free", "cfg-classify/src/useful.rs: usefulness_with_roots"]}
{"id": "C140", "title": "Populations of rule descriptions", "statement": "Rule descriptions of the genetic search are totally ordered by their comparison, which says equal only for equal descriptions, so that a set of them holds exactly what was inserted, once and in order; a mutation returns the population unchanged.", "quantifier": "every rule description, every sequence of insertions, every population and mutation", "why_tests_cant": "The only test mutates one population of one description and does not look at the result.", "anchors": ["cfg-generate/src/genetic.rs: RuleDescription::cmp, Population::mutate"]}
{"id": "C141", "title": "Rules loaded from a BNF text can be traced to its alternatives", "statement": "Cfg::load numbers the alternatives of a text from one: the rules that have an origin are, in order, one per alternative, with the number of the alternative as the origin. The left side is the symbol of the name on the left; on the right, a name is its symbol, and a repeated name is a symbol of no name whose rules are exactly those of the repetition.", "quantifier": "every BNF text with fewer than 2^32-1 alternatives, both build profiles, every correct recogniser", "why_tests_cant": "Tests load few texts and never look at the origins of the rules.", "anchors": ["cfg-load/src/basic.rs: Cfg::load", "cfg-grammar/src/rule_builder.rs: RuleBuilder::rhs", "cfg-history/src/lib.rs: RootHistoryNode::Origin"]}
{"id": "C142", "title": "Comparing named rules compares names and histories", "statement": "Rules named by the tables of their grammars compare equal exactly if they have the same names in the same places and the same histories; a named rule compares equal to one made from a list of names exactly if its symbols have these names, and, if that one was made with a history, also this history.", "quantifier": "every two rules whose symbols have entries in the tables of names, every list of names, every history", "why_tests_cant": "Tests compare a few rules with hand-written ones and never expect a difference.", "anchors": ["cfg-grammar/src/cfg.rs: CfgRule::named, NamedCfgRule::new, NamedCfgRule::with_history, NamedCfgRule PartialEq"]}
{"id": "C143", "title": "The message of a loading error tells what went wrong", "statement": "If two errors returned by Cfg::load or Cfg::load_advanced print the same message, they have the same line, column and reason, and their tokens print the same.", "quantifier": "every two errors returned by either loader, for all texts, both build profiles, every way to print tokens", "why_tests_cant": "Tests print no errors.", "anchors": ["cfg-load/src/lib.rs: LoadError Display", "cfg-load/src/basic.rs: Cfg::load", "cfg-load/src/advanced.rs: Cfg::load_advanced"]}
{"id": "C144", "title": "Splitting long rules keeps LL(1) classes", "statement": "Splitting long rules (limit_rhs_len) changes neither which alternatives of an old symbol are in which cell of the LL(1) table nor its LL class, and puts at most one rule into each cell of a new symbol. False as stated: FIRST of a right side that begins with a nullable symbol is too small before splitting and can be right afterwards, so that a symbol changes from Ll1 to ContextFree. It holds for symbols whose right sides have productive symbols only and nullable symbols at the front that derive only the empty string; for classes, when all symbols are like that.", "quantifier": "every grammar, every limit of at least two symbols (or none), every symbol and terminal", "why_tests_cant": "Relates two table constructions over all grammars and limits; the tests classify no split grammar.", "anchors": ["cfg-classify/src/ll.rs: LlParseTable", "cfg-grammar/src/cfg.rs: limit_rhs_len", "cfg-predict-sets/src/first.rs: first_set_for_string"]}
{"id": "C145", "title": "Precedenced rules carry the histories given for them", "statement": "In a grammar without a limit of right sides, precedenced_rule(lhs), any calls of the builder and finalize succeed, keep the rules there were in front and unchanged, and add, up to order, exactly: one rule for each alternative, on the symbol of its level, with the occurrences of lhs replaced as its associativity says and with the history given for it (history(h) serves the next alternative only and is overridden by rhs_with_history; otherwise the history of a rule of lhs); one rule linking each level to the next tighter one; and one rule from lhs to the loosest level. The linking rules carry the no-operation history, which has no origin. One fresh symbol is made for each level.", "quantifier": "every grammar without a limit, every left side, every sequence of builder calls", "why_tests_cant": "All sequences of calls in any order, with histories pending across levels; the tests check languages, not histories.", "anchors": ["cfg-grammar/src/precedenced_rule.rs: PrecedencedRuleBuilder", "cfg-history/src/earley/mod.rs: process_linked"]}
{"id": "C146", "title": "Named rules that print the same are equal", "statement": "Printing a NamedCfgRule (Debug) whose symbols have entries in its table of names does not panic and shows the names and the history; two rules that print the same compare equal, and two rules with histories that compare equal print the same. False when a symbol is named gensym: that prints like a symbol without a name. It holds when no symbol of the rules has this name.", "quantifier": "every pair of named rules", "why_tests_cant": "Compares two functions on all pairs of rules; the tests print a rule only when they fail.", "anchors": ["cfg-grammar/src/cfg.rs: Debug for NamedCfgRule", "cfg-grammar/src/cfg.rs: PartialEq for NamedCfgRule"]}
{"id": "C147", "title": "Rules left after eliminating nulling rules can be traced", "statement": "After binarize_and_eliminate_nulling_rules every rule of the grammar and of the returned grammar has no origin or the origin of a rule of the old grammar with the same left side. Every old rule with a symbol on its right, whose left side derives a string of at least one terminal, has a new rule with its left side and origin. A rule of the new grammar is a rule of the grammar split by limit 2, unchanged, or such a rule with one nullable symbol left out, and then its history is kept and tells which symbol was left out and on which side. False as stated: when both symbols of a rule are nullable, the two shortened rules have the same history, with the origin only. The rest holds.", "quantifier": "every well-formed grammar", "why_tests_cant": "Histories of the rules made by the transformation for all grammars; the tests compare right sides only.", "anchors": ["cfg-grammar/src/cfg.rs: binarize_and_eliminate_nulling_rules", "cfg-history/src/earley/mod.rs: eliminate_nulling"]}
{"id": "C148", "title": "Only the rules of its left side carry the origin of a sequence", "statement": "Rewriting a sequence rule keeps the rules of the grammar in front and adds first the rules of its left side, which carry the history of the sequence (or of a rule of the left side, if none was given) with the item, the separator and the mark of the top, then rules of new symbols, which carry the item and the separator without the mark and have no origin. False as stated: when the sequence was given a history, the rules of new symbols have its origin, too. The rest holds.", "quantifier": "every sequence rule, both build profiles, every grammar without a limit of right sides or with one of at least three symbols, whenever the rewriting returns", "why_tests_cant": "All ranges and separators; the tests compare right sides, not histories.", "anchors": ["cfg-sequence/src/rewrite.rs: SequencesToProductions::rewrite", "cfg-history/src/earley/mod.rs: process_linked"]}
{"id": "C149", "title": "Rewriting cycles keeps the other rules and their histories", "statement": "Rewriting the cycles of a grammar changes only its list of rules. The rules on cycles are removed. Every other rule stays exactly once, with each symbol on a cycle replaced by the left side of the first rule on that cycle, and with its own history. First come the rules in which no symbol changes, then the changed ones, both in the old order.", "quantifier": "every well formed grammar whose rules respect its limit of right sides, if it has one", "why_tests_cant": "All grammars; the tests compare the language of two small grammars and no histories.", "anchors": ["cfg-classify/src/cyclical.rs: Cycles::rewrite_cycles"]}
{"id": "C150", "title": "Rules of a prepared grammar can be traced to the rules written", "statement": "Load a BNF text and prepare the grammar for a recogniser: keep useful rules, wrap the input, split and eliminate nulling rules, drop unused symbols. Every rule of the result has no origin, or the origin 0, or the number of an alternative of the text; in the last case the symbol on its left has the name on the left of that alternative. The same holds for a file of the advanced loader, and there the returned actions have the action of that alternative at the origin. For a grammar built otherwise, every rule of the result has no origin, or is a rule of a wrapped root with the origin 0, or has the origin of an old rule with the same left side up to renumbering. No useful rule gets lost: if its right side is not empty and its left side derives a string of at least one terminal, the result has a rule with its origin and left side.", "quantifier": "every BNF text whose first name is productive, every advanced file as in C115, both build profiles; every well formed grammar without a length limit whose roots are productive", "why_tests_cant": "The composition of five passes over all texts; tests look at single passes and not at origins.", "anchors": ["cfg-load/src/basic.rs: load", "cfg-classify/src/lib.rs: make_proper", "cfg-grammar/src/cfg.rs: wrap_input, binarize_and_eliminate_nulling_rules", "cfg-symbol-bit-matrix/src/remap_symbols.rs: remove_unused_symbols"]}
{"id": "C151", "title": "Removing or rewriting cycles does not turn nonterminals into terminals", "statement": "After remove_cycles or rewrite_cycles every symbol on the right of a remaining rule that was the left side of some rule before is still the left side of some rule, so that the library's own terminal set classifies it as before. False as stated: with S ::= A | x, A ::= B, B ::= A both passes keep S ::= A and remove all rules of A, so an unproductive symbol becomes a terminal of the language; remove_cycles does so even with productive symbols. What holds: after remove_cycles the terminals are exactly the symbols all whose rules lay on cycles; after rewrite_cycles the symbol that stands for a cycle is a terminal exactly when no rule leaves the cycle, which never happens when the symbols on cycles are productive.", "quantifier": "every well-formed grammar; for rewrite_cycles every one whose rules respect its limit of right sides, if any", "why_tests_cant": "All grammars with all mixtures of cycles; the tests rewrite cycles that have a way out.", "anchors": ["cfg-classify/src/cyclical.rs: remove_cycles, rewrite_cycles", "cfg-grammar/src/symbol_bit_set.rs: terminal, terminal_symbols"]}
{"id": "C152", "title": "Analyses give the same results after rewriting cycles", "statement": "If the symbols on cycles are productive, then after rewrite_cycles the symbol that stands for a cycle (every other symbol for itself) has the language, over the terminals of the new grammar, the FIRST, LAST and FOLLOW sets, the minimal length of sentences, the productivity and the reachability from and to other symbols that each symbol it stands for had before. Only the mark of the end of input in FOLLOW sets stays with the symbols listed as roots.", "quantifier": "every well-formed grammar whose symbols on cycles are productive and whose rules respect its limit of right sides, if any; for lengths: within 32 bits", "why_tests_cant": "Semantic, all derivations; no test runs an analysis on a rewritten grammar.", "anchors": ["cfg-classify/src/cyclical.rs: rewrite_cycles", "cfg-predict-sets/src/first.rs, last.rs, follow.rs", "cfg-classify/src/useful.rs", "cfg-predict-distance/src/lib.rs: minimal_sentence_lengths"]}
{"id": "C153", "title": "A prepared grammar can be made cycle free without changing its sentences", "statement": "Prepare a grammar for a recogniser (keep useful rules, wrap the input, split and eliminate nulling rules, drop unused symbols) and rewrite the cycles of the result. The calls return, a fresh analysis finds no cycle, every rule has one or two symbols on the right, the roots are the same, and each root derives the start marker, a string and the end marker exactly if the old root derived the string. If the prepared grammar has no rule A ::= A, every string has finitely many parse trees. So the loss of roots in C36 does not happen to wrapped roots. The same, with strings of names, from a loaded BNF text on; with the texts that the first left side describes, from an advanced file on.", "quantifier": "every well formed grammar without a length limit whose roots are productive; every advanced file as in C100 whose first left side describes a text; every BNF text whose first name is productive, both build profiles", "why_tests_cant": "The composition of five passes over all grammars; tests run single passes.", "anchors": ["cfg-classify/src/lib.rs: make_proper", "cfg-grammar/src/cfg.rs: wrap_input, binarize_and_eliminate_nulling_rules", "cfg-symbol-bit-matrix/src/remap_symbols.rs: remove_unused_symbols", "cfg-classify/src/cyclical.rs: rewrite_cycles"]}
{"id": "C154", "title": "Nonterminals classified as LL(1) are not left recursive", "statement": "If LlParseTable::classify() gives a nonterminal the class Ll1, no rule of a symbol that it reaches is left recursive (its right side derives no string of symbols that begins with its left side); in particular no such symbol lies on a cycle. False as stated: U ::= U without a way out gets the class Ll1 in S ::= U c, and S ::= b A, A ::= A | empty gives S the class Ll1. It holds for the nonterminal itself and for symbols that derive a string that is not empty or that a terminal can follow, if all symbols of reached rules are productive and nullable symbols at the front of right sides derive only the empty string.", "quantifier": "every well-formed grammar, every nonterminal, every rule it reaches", "why_tests_cant": "Quantifies over all grammars and derivations; the tests classify two small grammars.", "anchors": ["cfg-classify/src/ll.rs: LlParseTable::new, classify"]}
