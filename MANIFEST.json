{
 "claims": [
  {
   "property": "C01",
   "status": "proved",
   "theorems": [
    "Verif.C01_fresh_symbols",
    "Verif.C01_later_symbols_new",
    "Verif.C01_bounded_agrees"
   ],
   "note": "Symbols are numbered 0,1,2,...; the bounded source agrees with the unbounded one used by the grammar model below capacity."
  },
  {
   "property": "C02",
   "status": "partial",
   "theorems": [
    "Verif.C02_no_silent_reuse_partial",
    "Verif.C02_violated_u32_release",
    "Verif.C02_saturated_forever"
   ],
   "note": "Violated for u32 in release builds: saturating_add keeps returning the last symbol (C02_violated_u32_release, C02_saturated_forever). The partial theorem covers u8/u16 in both profiles and u32 in debug."
  },
  {
   "property": "C03",
   "status": "proved",
   "theorems": [
    "Verif.C03_names_stay",
    "Verif.C03_unknown"
   ],
   "note": ""
  },
  {
   "property": "C04",
   "status": "proved",
   "theorems": [
    "Verif.C04_name_map",
    "Verif.C04_name_map_none"
   ],
   "note": ""
  },
  {
   "property": "C05",
   "status": "proved",
   "theorems": [
    "Verif.C05_mini_round_trip",
    "Verif.C05_mini_de",
    "Verif.C05_accepted_numbers",
    "Verif.C05_nano_round_trip",
    "Verif.C05_nano_zero_panics"
   ],
   "note": "The binary format panics on a zero word (C05_nano_zero_panics); round trips hold for all symbols."
  },
  {
   "property": "C06",
   "status": "proved",
   "theorems": [
    "Verif.C06_translate",
    "Verif.C06_new"
   ],
   "note": ""
  },
  {
   "property": "C07",
   "status": "proved",
   "theorems": [
    "Verif.C07_terminal",
    "Verif.C07_nulling",
    "Verif.C07_used",
    "Verif.C07_unused",
    "Verif.C07_iter",
    "Verif.C07_union_negate",
    "Verif.C07_union_panics",
    "Verif.C07_set",
    "Verif.C07_productive",
    "Verif.C07_productive_new",
    "Verif.C07_reserve"
   ],
   "note": ""
  },
  {
   "property": "C08",
   "status": "partial",
   "theorems": [
    "Verif.C08_violated_is_empty",
    "Verif.C08_is_empty_partial",
    "Verif.C08_all_partial"
   ],
   "note": "is_empty/all of SymbolBitSet: the stated meaning fails for the implemented is_empty (witness theorem); the partial theorems state what the functions do decide."
  },
  {
   "property": "C09",
   "status": "proved",
   "theorems": [
    "Verif.C09_all",
    "Verif.C09_any"
   ],
   "note": ""
  },
  {
   "property": "C10",
   "status": "proved",
   "theorems": [
    "Verif.C10_order_independent"
   ],
   "note": ""
  },
  {
   "property": "C11",
   "status": "proved",
   "theorems": [
    "Verif.C11_least_weights",
    "Verif.C11_returns",
    "Verif.C11_panic_witness"
   ],
   "note": ""
  },
  {
   "property": "C12",
   "status": "proved",
   "theorems": [
    "Verif.C12_limit",
    "Verif.C12_count",
    "Verif.C12_kept"
   ],
   "note": ""
  },
  {
   "property": "C13",
   "status": "proved",
   "theorems": [
    "Verif.C13_limit",
    "Verif.C13_add"
   ],
   "note": ""
  },
  {
   "property": "C14",
   "status": "proved",
   "theorems": [
    "Verif.C14_idempotent"
   ],
   "note": ""
  },
  {
   "property": "C15",
   "status": "partial",
   "theorems": [
    "Verif.C15_violated_no_return",
    "Verif.C15_violated_limit_one",
    "Verif.C15_violated_rule_lost",
    "Verif.C15_limit_returns_partial",
    "Verif.C15_limit_one_partial"
   ],
   "note": "For limits 0 and 1 splitting does not terminate or loses rules (witness theorems); termination is proved for limit >= 2 and the exact behaviour characterised for limit 1."
  },
  {
   "property": "C16",
   "status": "partial",
   "theorems": [
    "Verif.C16_violated_range_end",
    "Verif.C16_violated_extend",
    "Verif.C16_invariant_partial"
   ],
   "note": "rhs_len_invariant is not respected by extend and by reversed/odd range ends (witness theorems); the invariant is proved for programs built from add_rule."
  },
  {
   "property": "C17",
   "status": "proved",
   "theorems": [
    "Verif.C17_shape",
    "Verif.C17_short"
   ],
   "note": ""
  },
  {
   "property": "C18",
   "status": "proved",
   "theorems": [
    "Verif.C18_reverse",
    "Verif.C18_involutive"
   ],
   "note": ""
  },
  {
   "property": "C19",
   "status": "proved",
   "theorems": [
    "Verif.C19_sort",
    "Verif.C19_dedup",
    "Verif.C19_dedup_first",
    "Verif.C19_extend"
   ],
   "note": ""
  },
  {
   "property": "C20",
   "status": "proved",
   "theorems": [
    "Verif.C20_wrap_input"
   ],
   "note": ""
  },
  {
   "property": "C21",
   "status": "partial",
   "theorems": [
    "Verif.C21_violated_limit",
    "Verif.C21_violated_root_rule",
    "Verif.C21_is_empty_partial"
   ],
   "note": "False as stated (witnesses proved): under a limit of 2 the split wrapping rule counts as a rule, and a rule given to a wrapped root is not counted. The partial theorem covers no limit or a limit of at least 3."
  },
  {
   "property": "C22",
   "status": "proved",
   "theorems": [
    "Verif.C22_column"
   ],
   "note": ""
  },
  {
   "property": "C23",
   "status": "proved",
   "theorems": [
    "Verif.C23_nullable"
   ],
   "note": ""
  },
  {
   "property": "C24",
   "status": "proved",
   "theorems": [
    "Verif.C24_language"
   ],
   "note": ""
  },
  {
   "property": "C25",
   "status": "proved",
   "theorems": [
    "Verif.C25_binary"
   ],
   "note": ""
  },
  {
   "property": "C26",
   "status": "proved",
   "theorems": [
    "Verif.C26_nulling_grammar"
   ],
   "note": ""
  },
  {
   "property": "C27",
   "status": "partial",
   "theorems": [
    "Verif.C27_violated_nulling_only",
    "Verif.C27_terminals_partial"
   ],
   "note": "False as stated (witness proved): nulling-only symbols stay on right sides without rules. The partial theorem characterises which symbols keep rules."
  },
  {
   "property": "C28",
   "status": "proved",
   "theorems": [
    "Verif.C28_productivity"
   ],
   "note": ""
  },
  {
   "property": "C29",
   "status": "proved",
   "theorems": [
    "Verif.C29_reachable"
   ],
   "note": ""
  },
  {
   "property": "C30",
   "status": "proved",
   "theorems": [
    "Verif.C30_all_useful"
   ],
   "note": ""
  },
  {
   "property": "C31",
   "status": "proved",
   "theorems": [
    "Verif.C31_language",
    "Verif.C31_make_proper"
   ],
   "note": ""
  },
  {
   "property": "C32",
   "status": "partial",
   "theorems": [
    "Verif.C32_violated_one_pass",
    "Verif.C32_report",
    "Verif.C32_productive_partial",
    "Verif.C32_useful_partial",
    "Verif.C32_two_passes_partial"
   ],
   "note": "False as stated (witness proved): one pass can leave rules that were reachable only through removed rules. Proved: the report is exact, remaining symbols are productive, one pass suffices without unproductive symbols, two passes always suffice."
  },
  {
   "property": "C33",
   "status": "proved",
   "theorems": [
    "Verif.C33_reachability",
    "Verif.C33_direct",
    "Verif.C33_unit",
    "Verif.C33_unit_derives"
   ],
   "note": ""
  },
  {
   "property": "C34",
   "status": "proved",
   "theorems": [
    "Verif.C34_cycle_free",
    "Verif.C34_participants",
    "Verif.C34_free_iff_no_participant"
   ],
   "note": ""
  },
  {
   "property": "C35",
   "status": "proved",
   "theorems": [
    "Verif.C35_remove_cycles"
   ],
   "note": ""
  },
  {
   "property": "C36",
   "status": "partial",
   "theorems": [
    "Verif.C36_violated_root",
    "Verif.C36_language_partial"
   ],
   "note": "False as stated (witness proved): a root that is not the representative of its cycle loses its rules. Proved for all symbols up to the replacement by representatives, which is characterised exactly."
  },
  {
   "property": "C37",
   "status": "proved",
   "theorems": [
    "Verif.C37_cycle_free",
    "Verif.C37_every_limit"
   ],
   "note": ""
  },
  {
   "property": "C38",
   "status": "partial",
   "theorems": [
    "Verif.C38_violated_cache",
    "Verif.C38_cycle_free_partial"
   ],
   "note": "False as stated (proved for every grammar with a cycle): the cached answer is stale. Proved for cycle-free grammars."
  },
  {
   "property": "C39",
   "status": "proved",
   "theorems": [
    "Verif.C39_recursive",
    "Verif.C39_kinds"
   ],
   "note": ""
  },
  {
   "property": "C40",
   "status": "partial",
   "theorems": [
    "Verif.C40_violated_false_alarm",
    "Verif.C40_violated_hidden",
    "Verif.C40_no_nullable_partial"
   ],
   "note": "False as stated in both directions (witnesses proved). Proved: without nullable symbols every left-recursive rule is flagged; C39_kinds says exactly what the flags mean."
  },
  {
   "property": "C41",
   "status": "proved",
   "theorems": [
    "Verif.C41_first"
   ],
   "note": ""
  },
  {
   "property": "C42",
   "status": "partial",
   "theorems": [
    "Verif.C42_string_partial",
    "Verif.C42_violated_nullable",
    "Verif.C42_violated_unproductive"
   ],
   "note": "Violated: first_set_for_string stops at the first symbol with a non-empty FIRST set even if it is nullable, and skips symbols with an empty FIRST set even if they are not nullable. Proved: the exact result, soundness for productive symbols, completeness when the nullable symbols at the front derive only the empty string."
  },
  {
   "property": "C43",
   "status": "proved",
   "theorems": [
    "Verif.C43_follow"
   ],
   "note": ""
  },
  {
   "property": "C44",
   "status": "partial",
   "theorems": [
    "Verif.C44_end_partial",
    "Verif.C44_violated"
   ],
   "note": "Violated: the end-of-input flag is set for roots only and never passed on. Proved: flag set exactly for roots, hence sound."
  },
  {
   "property": "C45",
   "status": "proved",
   "theorems": [
    "Verif.C45_last"
   ],
   "note": ""
  },
  {
   "property": "C46",
   "status": "partial",
   "theorems": [
    "Verif.C46_cells_partial",
    "Verif.C46_violated_missing",
    "Verif.C46_violated_extra"
   ],
   "note": "Violated through C42. Proved: cells have no repetitions; sound for productive right sides; complete when the nullable symbols at the front of the right side derive only the empty string. The table has no end-of-input column."
  },
  {
   "property": "C47",
   "status": "partial",
   "theorems": [
    "Verif.C47_classes_partial",
    "Verif.C47_violated"
   ],
   "note": "Violated as stated: ContextFree also spreads to nonterminals reaching a conflict. Proved: Ll1 implies no conflict in the row, conflict implies ContextFree. C76 proves the exact condition."
  },
  {
   "property": "C48",
   "status": "partial",
   "theorems": [
    "Verif.C48_closure_partial",
    "Verif.C48_violated_lost_kernel",
    "Verif.C48_violated_missing"
   ],
   "note": "Violated because items are keyed by rule: S ::= a . S loses the given item (C48_violated_lost_kernel) and S ::= A . S does not get the rules of A (C48_violated_missing). Proved when no given rule with an inner dot is added at the start; C82 gives the exact result for all item sets."
  },
  {
   "property": "C49",
   "status": "partial",
   "theorems": [
    "Verif.C49_sequence_language_partial",
    "Verif.C49_violated_open_release"
   ],
   "note": "Violated in release builds for open ranges from 2^31+2 on: the left side generates nothing (C49_violated_open_release). The partial theorem covers start <= end <= 2^31 and open ranges from at most 2^31+1; C77 gives the exact condition and the effect on all other symbols."
  },
  {
   "property": "C50",
   "status": "proved",
   "theorems": [
    "Verif.C50_terminates_small"
   ],
   "note": "Proved for every non-inverted range of u32 numbers in both profiles: no divergence, at most 72*log2(m)+148 new rules."
  },
  {
   "property": "C51",
   "status": "partial",
   "theorems": [
    "Verif.C51_accepted_debug_partial",
    "Verif.C51_accepted_release_partial",
    "Verif.C51_violated"
   ],
   "note": "False as stated (C51_violated): the non-empty range 1..=2^31+1 panics, and the release profile accepts an inverted range. The partial theorems give exactly what is accepted in debug, and that fitting ranges are accepted in release."
  },
  {
   "property": "C52",
   "status": "partial",
   "theorems": [
    "Verif.C52_range_exact_partial",
    "Verif.C52_violated"
   ],
   "note": "Violated for range(0..0), which becomes 0..=u32::MAX, and for an excluded start of u32::MAX (C52_violated); exact for all other bounds."
  },
  {
   "property": "C53",
   "status": "partial",
   "theorems": [
    "Verif.C53_restricts_partial",
    "Verif.C53_restricts_lang",
    "Verif.C53_violated"
   ],
   "note": "Violated when no alternative is given at the tightest level: the fresh symbol of that level has no rules and shows up in the language (C53_violated). Proved for all strings over the user's terminals, and for the whole language when the tightest level has an alternative."
  },
  {
   "property": "C54",
   "status": "partial",
   "theorems": [
    "Verif.C54_levels_partial",
    "Verif.C54_violated"
   ],
   "note": "Violated at the tightest level, where tighter_lhs = current_lhs: E ::= ( E + E ) given there nests on both sides (C54_violated). Proved, as an exact language, when no non-Group alternative of the tightest level has two occurrences of the left side; C80 gives the exact statement for all programs."
  },
  {
   "property": "C55",
   "status": "partial",
   "theorems": [
    "Verif.C55_reorder_symbols_partial",
    "Verif.C55_violated_limit"
   ],
   "note": "Violated for a grammar extended with a rule longer than its limit: add_rule splits the renamed rule and the fresh symbol has no entry, so the call panics (C55_violated_limit). Proved within the limit; C84 is the exact statement."
  },
  {
   "property": "C56",
   "status": "partial",
   "theorems": [
    "Verif.C56_remove_unused_partial",
    "Verif.C56_violated_no_rules",
    "Verif.C56_violated_root"
   ],
   "note": "Violated without rules (truncate(0) panics, C56_violated_no_rules, for all such grammars) and for unused roots, which end up beyond the last symbol (C56_violated_root). Proved otherwise; C85 is the exact statement."
  },
  {
   "property": "C57",
   "status": "partial",
   "theorems": [
    "Verif.C57_sentence_lengths_partial",
    "Verif.C57_violated_overflow"
   ],
   "note": "Violated by overflow: a grammar of 33 doubling rules has a shortest string of length 2^33 and the u32 addition panics with overflow checks (C57_violated_overflow). Proved whenever the call does not panic; C86 gives a bound under which it never does."
  },
  {
   "property": "C58",
   "status": "partial",
   "theorems": [
    "Verif.C58_forward_partial",
    "Verif.C58_violated_order",
    "Verif.C58_violated_backward"
   ],
   "note": "Violated: forward distances depend on the order of rules (C58_violated_order) and backward distances are written one rule position off (C58_violated_backward). Proved: forward distances are costs of walks from their position to a dot; C87 covers sequences of calls."
  },
  {
   "property": "C59",
   "status": "proved",
   "theorems": [
    "Verif.C59_sentences",
    "Verif.C59_characters",
    "Verif.C59_no_panic",
    "Verif.C59_turns"
   ],
   "note": ""
  },
  {
   "property": "C60",
   "status": "partial",
   "theorems": [
    "Verif.C60_spaced_partial",
    "Verif.C60_spaced_no_panic_partial",
    "Verif.C60_violated_stale"
   ],
   "note": "Violated: states remembered at negative symbols are not dropped when an earlier one is given up, so a later try can be continued from a state of the first try, giving a string that is not derivable (C60_violated_stale). Proved, for every random source, when at least as much text lies between two negative symbols as the first one forbids and no forbidden text is empty."
  },
  {
   "property": "C61",
   "status": "proved",
   "theorems": [
    "Verif.C61_table",
    "Verif.C61_existing",
    "Verif.C61_slices",
    "Verif.C61_single",
    "Verif.C61_byteSource_range",
    "Verif.C61_byteSource_order",
    "Verif.C61_no_rules",
    "Verif.C61_history_weight"
   ],
   "note": ""
  },
  {
   "property": "C62",
   "status": "partial",
   "theorems": [
    "Verif.C62_lookup_partial",
    "Verif.C62_violated_shared_symbol",
    "Verif.C62_exact_partial",
    "Verif.C62_sound_partial"
   ],
   "note": "Proved when different classes have different symbols and a class's ranges do not overlap, which holds for every map built by the translation (C89). Violated when two classes share a symbol, which the public field allows. C62_exact_partial gives the exact answer for every map that can be computed (ASCII: always right; other characters: the rightmost end of a range decides), C62_sound_partial that no symbol is ever found wrongly."
  },
  {
   "property": "C63",
   "status": "partial",
   "theorems": [
    "Verif.C63_byte_partial",
    "Verif.C63_char_partial",
    "Verif.C63_violated_next_char",
    "Verif.C63_violated_last_byte",
    "Verif.C63_violated_last_chars"
   ],
   "note": "The code stores a literal as the inclusive range of two characters, so the next character matches too; bytes below 255 and characters whose next two code points are characters get exactly these two. Byte 255 panics (debug) or matches everything from 255 up (release); two characters panic."
  },
  {
   "property": "C64",
   "status": "partial",
   "theorems": [
    "Verif.C64_compute_partial",
    "Verif.C64_violated_ranges"
   ],
   "note": "Exact characterisation of the class sets for which computing succeeds; witnesses for the panics."
  },
  {
   "property": "C65",
   "status": "partial",
   "theorems": [
    "Verif.C65_language_partial",
    "Verif.C65_violated_large_bound",
    "Verif.C65_violated_look"
   ],
   "note": "Proved for expressions without look-around and byte 255 whose repetition bounds fit the sequence rules; larger bounds and look-around panic (witnesses)."
  },
  {
   "property": "C66",
   "status": "proved",
   "theorems": [
    "Verif.C66_tokens",
    "Verif.C66_error",
    "Verif.C66_returns",
    "Verif.C66_unique"
   ],
   "note": "Exact in both directions: tokens and errors are characterised by an independent lexical specification."
  },
  {
   "property": "C67",
   "status": "proved",
   "theorems": [
    "Verif.C67_load_printed",
    "Verif.C67_numbering",
    "Verif.C67_print_again",
    "Verif.C67_empty"
   ],
   "note": "Equality of the whole loaded grammar; relies on the contract of the external recognizer (Recognizer.Correct, shown satisfiable). C67_empty: a grammar without rules prints as the empty text, which is not loaded."
  },
  {
   "property": "C68",
   "status": "partial",
   "theorems": [
    "Verif.C68_violated",
    "Verif.C68_no_panic_partial"
   ],
   "note": "Violated: the tokeniser's error is unwrapped, so any text with a character that starts no token (digits, comments, CR line ends) panics (C68_violated). Proved: these are exactly the texts that panic."
  },
  {
   "property": "C69",
   "status": "partial",
   "theorems": [
    "Verif.C69_violated_prefix",
    "Verif.C69_violated_transitive",
    "Verif.C69_equivalent_partial"
   ],
   "note": "False as stated (witnesses proved): prefixes are accepted and the relation is not transitive. The partial theorem characterises exactly what is compared."
  },
  {
   "property": "C70",
   "status": "partial",
   "theorems": [
    "Verif.C70_violated_transitive",
    "Verif.C70_eq_partial"
   ],
   "note": "False as stated (witness proved): not transitive through a rule without history. The partial theorem characterises the comparison and the cases in which it is an equivalence."
  },
  {
   "property": "C71",
   "status": "partial",
   "theorems": [
    "Verif.C71_violated_collision",
    "Verif.C71_inner_dots_partial"
   ],
   "note": "Dots of the split rules can collide between pieces (witness); inner dots are proved to be assigned correctly."
  },
  {
   "property": "C72",
   "status": "partial",
   "theorems": [
    "Verif.C72_violated_discarded",
    "Verif.C72_details_kept_partial",
    "Verif.C72_routine_partial"
   ],
   "note": "False as stated (witness proved): the recorded sequence details are never applied to the dots. The partial theorem shows the details are recorded and kept. C72_routine_partial says what the dropped routine computes."
  },
  {
   "property": "C73",
   "status": "proved",
   "theorems": [
    "Verif.C73_interner"
   ],
   "note": "Over arbitrary call sequences, with the contract of elsa's FrozenIndexSet as the model."
  },
  {
   "property": "C74",
   "status": "proved",
   "theorems": [
    "Verif.C74_builder"
   ],
   "note": ""
  },
  {
   "property": "C75",
   "status": "partial",
   "theorems": [
    "Verif.C75_truncate_partial",
    "Verif.C75_violated_grow",
    "Verif.C75_violated_at_max",
    "Verif.C75_truncate_panics"
   ],
   "note": "Violated at the documented end point n = T::MAX, which panics (C75_violated_at_max). The partial theorem covers 1..T::MAX-1."
  },
  {
   "property": "C76",
   "status": "proved",
   "theorems": [
    "Verif.C76_classes"
   ],
   "note": ""
  },
  {
   "property": "C77",
   "status": "proved",
   "theorems": [
    "Verif.C77_sequence_language",
    "Verif.C77_left_side"
   ],
   "note": "Exact range condition for C49; both profiles; effect on all old symbols."
  },
  {
   "property": "C78",
   "status": "partial",
   "theorems": [
    "Verif.C78_other_rules_partial",
    "Verif.C78_violated"
   ],
   "note": "Violated when the sequence is rewritten to a direct left recursion (start 1, open, Null or Proper separator): S ::= y plus the sequence x+ gives y x (C78_violated). Proved for all other sequences."
  },
  {
   "property": "C79",
   "status": "proved",
   "theorems": [
    "Verif.C79_builder"
   ],
   "note": ""
  },
  {
   "property": "C80",
   "status": "proved",
   "theorems": [
    "Verif.C80_precedence_language"
   ],
   "note": ""
  },
  {
   "property": "C81",
   "status": "proved",
   "theorems": [
    "Verif.C81_precedence_terminals"
   ],
   "note": ""
  },
  {
   "property": "C82",
   "status": "proved",
   "theorems": [
    "Verif.C82_closure_exact"
   ],
   "note": ""
  },
  {
   "property": "C83",
   "status": "proved",
   "theorems": [
    "Verif.C83_lr0_fsm"
   ],
   "note": ""
  },
  {
   "property": "C84",
   "status": "proved",
   "theorems": [
    "Verif.C84_reorder_symbols",
    "Verif.C84_new_mapping"
   ],
   "note": ""
  },
  {
   "property": "C85",
   "status": "proved",
   "theorems": [
    "Verif.C85_remove_unused_symbols"
   ],
   "note": ""
  },
  {
   "property": "C86",
   "status": "proved",
   "theorems": [
    "Verif.C86_sentence_lengths"
   ],
   "note": ""
  },
  {
   "property": "C87",
   "status": "proved",
   "theorems": [
    "Verif.C87_calls_return",
    "Verif.C87_forward_walks",
    "Verif.C87_dot_zero",
    "Verif.C87_unproductive_panic"
   ],
   "note": ""
  },
  {
   "property": "C88",
   "status": "proved",
   "theorems": [
    "Verif.C88_every_sentence"
   ],
   "note": ""
  },
  {
   "property": "C89",
   "status": "proved",
   "theorems": [
    "Verif.C89_lookup"
   ],
   "note": ""
  },
  {
   "property": "C90",
   "status": "proved",
   "theorems": [
    "Verif.C90_text"
   ],
   "note": ""
  },
  {
   "property": "C91",
   "status": "partial",
   "theorems": [
    "Verif.C91_accepts_partial",
    "Verif.C91_classes_partial",
    "Verif.C91_violated_literal",
    "Verif.C91_violated_non_ascii"
   ],
   "note": "Exact for expressions without literals; one direction for ASCII literals. Violated: every literal also accepts the next character, and non-ASCII literals do not accept themselves."
  },
  {
   "property": "C92",
   "status": "proved",
   "theorems": [
    "Verif.C92_load_language",
    "Verif.C92_load_error",
    "Verif.C92_unique"
   ],
   "note": "Relies on the contract of the external recognizer (Recognizer.Correct, shown satisfiable)."
  },
  {
   "property": "C93",
   "status": "proved",
   "theorems": [
    "Verif.C93_tokens",
    "Verif.C93_error",
    "Verif.C93_exhaustive",
    "Verif.C93_unique"
   ],
   "note": "Lexical structure specified inductively (Lexed, LexError) independently of the lexer."
  },
  {
   "property": "C94",
   "status": "proved",
   "theorems": [
    "Verif.C94_parse_failed",
    "Verif.C94_failed_to_tokenize",
    "Verif.C94_incomplete",
    "Verif.C94_only_files",
    "Verif.C94_exhaustive",
    "Verif.C94_unique"
   ],
   "note": "Relies on the contract of the external recognizer (Recognizer.Correct, shown satisfiable). Lines and columns are those of the token, cast to u32."
  },
  {
   "property": "C95",
   "status": "partial",
   "theorems": [
    "Verif.C95_exact_file",
    "Verif.C95_exact",
    "Verif.C95_returns_partial",
    "Verif.C95_panics",
    "Verif.C95_violated_lexer_first",
    "Verif.C95_violated_two_lexers",
    "Verif.C95_violated_last_char",
    "Verif.C95_violated_look"
   ],
   "note": "Violated: a file whose first declaration is a lexer, two lexer declarations, a literal with a character whose successor code point is not a character, and look-around in an expression all panic (four witnesses). Proved for files that start with a rule, have at most one lexer and whose literals and expressions the translation accepts; C95_exact: for debug builds, the exact condition under which loading panics (it never hangs); C95_exact_file: what happens with a file is decided by its first element that cannot be loaded. C95_panics: all others of the first two kinds panic."
  },
  {
   "property": "C96",
   "status": "partial",
   "theorems": [
    "Verif.C96_grammar_partial"
   ],
   "note": "Partial: for files as in C95 only (the others panic; C95_exact_file gives the exact condition for debug builds). Relies on the contract of the external recognizer."
  },
  {
   "property": "C97",
   "status": "partial",
   "theorems": [
    "Verif.C97_rejected_partial",
    "Verif.C97_violated_line"
   ],
   "note": "Violated: the line of the error is the number of the blamed token, not its line, and the column is always 1 (C97_violated_line). Proved: the first reason, and the position of the token it is about among the tokens of the file."
  },
  {
   "property": "C98",
   "status": "partial",
   "theorems": [
    "Verif.C98_records_partial"
   ],
   "note": "Partial: for files as in C95 only (the others panic; C95_exact_file gives the exact condition for debug builds)."
  },
  {
   "property": "C99",
   "status": "partial",
   "theorems": [
    "Verif.C99_language_partial",
    "Verif.C99_violated_name"
   ],
   "note": "Violated: a rule named __lex0 changes the meaning of the first literal (C99_violated_name). Proved when no written name is a generated one."
  },
  {
   "property": "C100",
   "status": "partial",
   "theorems": [
    "Verif.C100_text_partial",
    "Verif.C100_accepts_partial",
    "Verif.C100_classes_partial",
    "Verif.C100_violated_next_char"
   ],
   "note": "Violated: a literal also accepts the next character (C100_violated_next_char), as in C91. Proved: exact characterisation with literals read that way; every described text is accepted (ASCII literals in expressions); exact for files without literals."
  },
  {
   "property": "C101",
   "status": "proved",
   "theorems": [
    "Verif.C101_sentences",
    "Verif.C101_limit",
    "Verif.C101_add"
   ],
   "note": "Numbers of trees as bijections, so infinite numbers are compared too."
  },
  {
   "property": "C102",
   "status": "partial",
   "theorems": [
    "Verif.C102_trees_partial",
    "Verif.C102_unambiguous_partial",
    "Verif.C102_violated_liberal",
    "Verif.C102_liberal",
    "Verif.C102_liberal_empty",
    "Verif.C102_exact"
   ],
   "note": "Violated by Liberal separators with minimum 0: the empty string has two trees (C102_violated_liberal). Proved for all other ranges and separators. C102_liberal gives the exact number of trees for all Liberal separators, C102_liberal_empty shows that the empty string is the only exception, and C102_exact says when a left side is unambiguous."
  },
  {
   "property": "C103",
   "status": "proved",
   "theorems": [
    "Verif.C103_precedence_trees",
    "Verif.C103_ambiguous_trees"
   ],
   "note": ""
  },
  {
   "property": "C104",
   "status": "partial",
   "theorems": [
    "Verif.C104_operators_unambiguous_partial",
    "Verif.C104_exact_partial",
    "Verif.C104_violated"
   ],
   "note": "Violated when one level has operators that associate to different sides: `n * n + n` has two trees (C104_violated). Proved for tables in which every level associates to one side, with any atoms, brackets and levels (C104_operators_unambiguous_partial). C104_exact_partial: a table with an atom is unambiguous if and only if every level associates to one side."
  },
  {
   "property": "C105",
   "status": "partial",
   "theorems": [
    "Verif.C105_recursion_distances_partial",
    "Verif.C105_violated_first",
    "Verif.C105_violated_panic"
   ],
   "note": "Violated: the first number is always 0, so three terminals before the recursive symbol are not counted (C105_violated_first); a recursion that does not end panics (C105_violated_panic). Proved, for grammars whose right-side symbols derive strings of bounded length: the call returns, lists the rules and kinds of recursive_rules, the first number is 0, the second is at most the length of the shortest text of the rule when the rule is recursive at its first symbol."
  },
  {
   "property": "C106",
   "status": "proved",
   "theorems": [
    "Verif.C106_text_determines_rules",
    "Verif.C106_text_determines_names",
    "Verif.C106_text_of_rules",
    "Verif.C106_other_names"
   ],
   "note": ""
  },
  {
   "property": "C107",
   "status": "proved",
   "theorems": [
    "Verif.C107_reverse",
    "Verif.C107_sort",
    "Verif.C107_remove_useless",
    "Verif.C107_make_proper",
    "Verif.C107_wrap_input",
    "Verif.C107_reorder_symbols",
    "Verif.C107_remove_unused"
   ],
   "note": ""
  },
  {
   "property": "C108",
   "status": "partial",
   "theorems": [
    "Verif.C108_finite_partial",
    "Verif.C108_infinite",
    "Verif.C108_iff_partial",
    "Verif.C108_violated_self_loop"
   ],
   "note": "Violated by rules A ::= A, which the code does not count as cycles (C108_violated_self_loop). Proved without such rules (C108_finite_partial, C108_iff_partial); the second half is proved for every grammar (C108_infinite)."
  },
  {
   "property": "C109",
   "status": "partial",
   "theorems": [
    "Verif.C109_rewrite_partial",
    "Verif.C109_pipeline_partial",
    "Verif.C109_violated"
   ],
   "note": "Violated: nulling elimination makes a rule S ::= S from S ::= S B with nullable B, and rewrite_cycles keeps it (C109_violated). Proved when the grammar given to rewrite_cycles has no rule A ::= A (C109_rewrite_partial, C109_pipeline_partial)."
  },
  {
   "property": "C110",
   "status": "partial",
   "theorems": [
    "Verif.Macro.C110_parse_failed_partial",
    "Verif.Macro.C110_parse_failed_line_partial",
    "Verif.Macro.C110_failed_to_tokenize_partial",
    "Verif.Macro.C110_incomplete",
    "Verif.Macro.C110_rejected_partial",
    "Verif.Macro.C110_violated_line_breaks",
    "Verif.Macro.C110_violated_unterminated",
    "Verif.Macro.C110_violated_wrong_token",
    "Verif.Macro.C110_violated_panic",
    "Verif.Macro.C110_violated_raw"
   ],
   "note": "Violated: line breaks in strings before the error move it to a later token or make the macro panic (C110_violated_line_breaks, C110_violated_wrong_token, C110_violated_panic), and a raw string that does not end for the loader is a panic (C110_violated_unterminated, C110_violated_raw). Proved without such strings for errors of the parser and of the lexer, and with them for incomplete grammars and semantic errors. The escaping of the reason in the source text is not modelled."
  },
  {
   "property": "C111",
   "status": "partial",
   "theorems": [
    "Verif.Macro.C111_expands_partial",
    "Verif.Macro.C111_violated",
    "Verif.Macro.C111_violated_panic"
   ],
   "note": "Violated: the macro asserts is_empty() of the set of lexemes, which is true when the set is not empty, so that a grammar without strings and lexer rules is a panic (C111_violated, C111_violated_panic). Proved for all other files (C111_expands_partial)."
  },
  {
   "property": "C112",
   "status": "partial",
   "theorems": [
    "Verif.C112_unambiguous_partial",
    "Verif.C112_wrapped_partial",
    "Verif.C112_violated_end",
    "Verif.C112_violated_front"
   ],
   "note": "Violated: without a column for the end of input, two empty alternatives are no conflict (C112_violated_end), and FIRST of a right side that begins with a nullable symbol is too small (C112_violated_front). Proved when the nullable symbols at the front of reachable right sides derive only the empty string, and some terminal can follow the nonterminal (so for every root after wrap_input(), C112_wrapped_partial) or the empty string has at most one tree for each reachable symbol."
  },
  {
   "property": "C113",
   "status": "proved",
   "theorems": [
    "Verif.C113_no_more",
    "Verif.C113_same",
    "Verif.C113_unambiguous",
    "Verif.C113_nulling_trees"
   ],
   "note": ""
  },
  {
   "property": "C114",
   "status": "partial",
   "theorems": [
    "Verif.C114_retries_partial",
    "Verif.C114_violated_thin",
    "Verif.C114_bytes_partial"
   ],
   "note": "Violated: mix multiplies by the even number 34, so only the 128 bytes whose lowest bit equals that of 32 come out; with weights 0.5, 1 and 253.5 the second alternative is chosen for the byte 1 but in no retry. Proved: exactly these bytes come, each within 256 retries from every state, and an alternative with more than 3/255 of the weight is chosen in one of the first 256 retries. Weights are exact numbers."
  },
  {
   "property": "C115",
   "status": "proved",
   "theorems": [
    "Verif.C115_prepare",
    "Verif.C115_prepare_text",
    "Verif.Advanced.C115_prepare_advanced"
   ],
   "note": ""
  },
  {
   "property": "C116",
   "status": "partial",
   "theorems": [
    "Verif.C116_release_partial",
    "Verif.C116_agrees_partial",
    "Verif.C116_least_partial",
    "Verif.C116_violated_wrap",
    "Verif.C116_violated_lengths"
   ],
   "note": "Violated: sums wrap around at 2^32, so A ::= t t with the weight 2^31 for t gets the weight 0, and 33 symbols doubling each other get the shortest length 0 (C116_violated_wrap, C116_violated_lengths). Proved: the call returns for every table; a symbol has a weight exactly if it derives a string with a weight, and it is the weight of such a string modulo 2^32; what a debug build returns is returned, and the least weights when the bound of C11 holds."
  },
  {
   "property": "C117",
   "status": "partial",
   "theorems": [
    "Verif.Macro.C117_shown_partial",
    "Verif.Macro.C117_macro_partial",
    "Verif.Macro.C117_violated"
   ],
   "note": "Violated: the reason is put between quotes without escapes, so the reason for an expression such as \\d( , which has the expression in it, makes no string literal (C117_violated). Proved: the text shows a reason exactly if it has no quote, backslash or carriage return in it; every reason of the macro is shown unless it is that of an expression that cannot be parsed."
  },
  {
   "property": "C118",
   "status": "proved",
   "theorems": [
    "Verif.C118_nulling",
    "Verif.C118_remove_cycles",
    "Verif.C118_rewrite_cycles",
    "Verif.C118_remove_unused"
   ],
   "note": ""
  },
  {
   "property": "C119",
   "status": "partial",
   "theorems": [
    "Verif.C119_viable_partial",
    "Verif.C119_violated_nonterminal",
    "Verif.C119_violated_items"
   ],
   "note": "Violated: the machine has links through terminals only, so viable prefixes with nonterminals lead nowhere (C119_violated_nonterminal, for every grammar whose start symbol has a rule beginning with a nonterminal), and a node has one item per rule, so a valid item can be lost (C119_violated_items). Proved: every node reached holds only valid items; terminal prefixes without rules needing two items lead to exactly the valid items."
  },
  {
   "property": "C120",
   "status": "proved",
   "theorems": [
    "Verif.C120_retain",
    "Verif.C120_retain_lang",
    "Verif.C120_retain_twice",
    "Verif.C120_clear_rules",
    "Verif.C120_extend",
    "Verif.C120_split",
    "Verif.C120_with_sym_source"
   ],
   "note": ""
  },
  {
   "property": "C121",
   "status": "proved",
   "theorems": [
    "Verif.C121_sets",
    "Verif.C121_predict",
    "Verif.C121_matrices",
    "Verif.C121_usefulness",
    "Verif.C121_cycle_free",
    "Verif.C121_recursion",
    "Verif.C121_lengths",
    "Verif.C121_sort_dedup"
   ],
   "note": ""
  },
  {
   "property": "C122",
   "status": "proved",
   "theorems": [
    "Verif.C122_translated"
   ],
   "note": ""
  },
  {
   "property": "C123",
   "status": "partial",
   "theorems": [
    "Verif.C123_limit_two_partial",
    "Verif.C123_other_limits",
    "Verif.C123_violated_limit_three"
   ],
   "note": "False as stated (witness proved): under limits other than 2 all parts have the whole history, so the origin appears several times (exactly so: C123_other_limits). The partial theorem proves the claim for limit 2."
  },
  {
   "property": "C124",
   "status": "partial",
   "theorems": [
    "Verif.C124_reads_partial",
    "Verif.C124_deterministic",
    "Verif.C124_stops_partial",
    "Verif.C124_wrapped_partial",
    "Verif.C124_violated_lost",
    "Verif.C124_violated_loop"
   ],
   "note": "False as stated (two witnesses proved): rules are lost behind nullable symbols that begin with a terminal, and symbols that derive no string put rules into cells, so that the parser can loop. The partial theorems prove acceptance and termination when the nullable symbols at the front of right sides derive only the empty string (for termination, symbols must be productive); soundness and determinism hold for all grammars."
  },
  {
   "property": "C125",
   "status": "proved",
   "theorems": [
    "Verif.C125_call",
    "Verif.C125_session",
    "Verif.C125_new",
    "Verif.C125_analyses"
   ],
   "note": ""
  },
  {
   "property": "C126",
   "status": "proved",
   "theorems": [
    "Verif.C126_limit",
    "Verif.C126_add",
    "Verif.C126_elimination",
    "Verif.C126_wrap"
   ],
   "note": ""
  },
  {
   "property": "C127",
   "status": "proved",
   "theorems": [
    "Verif.C127_sets",
    "Verif.C127_analyses",
    "Verif.C127_predict",
    "Verif.C127_recursion"
   ],
   "note": ""
  },
  {
   "property": "C128",
   "status": "proved",
   "theorems": [
    "Verif.C128_reuse"
   ],
   "note": ""
  },
  {
   "property": "C129",
   "status": "proved",
   "theorems": [
    "Verif.C129_language",
    "Verif.C129_order"
   ],
   "note": ""
  },
  {
   "property": "C130",
   "status": "proved",
   "theorems": [
    "Verif.C130_remap",
    "Verif.C130_sets",
    "Verif.C130_matrices",
    "Verif.C130_usefulness",
    "Verif.C130_cycle_free",
    "Verif.C130_predict",
    "Verif.C130_lengths",
    "Verif.C130_recursion",
    "Verif.C130_ll_table",
    "Verif.C130_ll_classes"
   ],
   "note": ""
  },
  {
   "property": "C131",
   "status": "partial",
   "theorems": [
    "Verif.C131_returns_partial",
    "Verif.C131_left_recursion",
    "Verif.C131_violated"
   ],
   "note": "False as stated (witness proved): with S ::= S a | a and a byte source without bytes, generation runs for ever whatever the limits are. The partial theorem proves the claim for grammars in which no reachable symbol is left recursive; C131_left_recursion proves that the condition is needed."
  },
  {
   "property": "C132",
   "status": "partial",
   "theorems": [
    "Verif.C132_panic_exact",
    "Verif.C132_no_panic_partial",
    "Verif.C132_zero_choice_partial",
    "Verif.C132_violated_panic",
    "Verif.C132_violated_choice"
   ],
   "note": "False as stated (two witnesses proved): alternatives that all weigh zero make the choice panic with every rand source, and an exhausted byte source chooses an alternative of weight zero. The partial theorems prove the claim for positive totals and for values that are not at a boundary; C132_panic_exact characterises the panic."
  },
  {
   "property": "C133",
   "status": "partial",
   "theorems": [
    "Verif.C133_fits_partial",
    "Verif.C133_debug",
    "Verif.C133_violated_wrap"
   ],
   "note": "False in release builds (witness proved): sums of u8 weights wrap around. The partial theorem proves the claim for both profiles when the sums fit the type; C133_debug characterises when the debug build makes the table."
  },
  {
   "property": "C134",
   "status": "proved",
   "theorems": [
    "Verif.C134_same_outcome"
   ],
   "note": ""
  },
  {
   "property": "C135",
   "status": "proved",
   "theorems": [
    "Verif.C135_sets",
    "Verif.C135_matrices",
    "Verif.C135_usefulness",
    "Verif.C135_cycle_free",
    "Verif.C135_predict",
    "Verif.C135_lengths"
   ],
   "note": ""
  },
  {
   "property": "C136",
   "status": "proved",
   "theorems": [
    "Verif.C136_add",
    "Verif.C136_wrap",
    "Verif.C136_same"
   ],
   "note": ""
  },
  {
   "property": "C137",
   "status": "proved",
   "theorems": [
    "Verif.C137_recompute",
    "Verif.C137_uncomputed",
    "Verif.C137_add_class"
   ],
   "note": ""
  },
  {
   "property": "C138",
   "status": "proved",
   "theorems": [
    "Verif.C138_stops",
    "Verif.C138_release_returns",
    "Verif.C138_agrees",
    "Verif.C138_release_walks"
   ],
   "note": ""
  },
  {
   "property": "C139",
   "status": "proved",
   "theorems": [
    "Verif.C139_sets",
    "Verif.C139_reachability",
    "Verif.C139_predict",
    "Verif.C139_cycles",
    "Verif.C139_lengths"
   ],
   "note": ""
  },
  {
   "property": "C140",
   "status": "proved",
   "theorems": [
    "Verif.Genetic.C140_order",
    "Verif.Genetic.C140_insertions",
    "Verif.Genetic.C140_mutate"
   ],
   "note": ""
  },
  {
   "property": "C141",
   "status": "proved",
   "theorems": [
    "Verif.C141_origins"
   ],
   "note": ""
  },
  {
   "property": "C142",
   "status": "proved",
   "theorems": [
    "Verif.C142_named",
    "Verif.C142_expected"
   ],
   "note": ""
  },
  {
   "property": "C143",
   "status": "proved",
   "theorems": [
    "Verif.C143_message"
   ],
   "note": ""
  },
  {
   "property": "C144",
   "status": "partial",
   "theorems": [
    "Verif.C144_cells_partial",
    "Verif.C144_classes_partial",
    "Verif.C144_violated"
   ],
   "note": "Violated: FIRST of a right side that begins with a nullable symbol is too small; splitting the rule can repair it, so that a conflict appears (C144_violated). Proved for cells of symbols whose right sides have productive symbols only and begin with no nullable symbol that derives more than the empty string, and for classes when all symbols are like that; cells of new symbols without conditions."
  },
  {
   "property": "C145",
   "status": "proved",
   "theorems": [
    "Verif.C145_rules"
   ],
   "note": ""
  },
  {
   "property": "C146",
   "status": "partial",
   "theorems": [
    "Verif.C146_violated",
    "Verif.C146_debug_partial"
   ],
   "note": "Violated: a symbol named gensym prints like a symbol without a name (C146_violated). Proved for rules in which no symbol has this name."
  },
  {
   "property": "C147",
   "status": "partial",
   "theorems": [
    "Verif.C147_origins",
    "Verif.C147_kept",
    "Verif.C147_omitted_partial",
    "Verif.C147_violated"
   ],
   "note": "Violated: a rule of two nullable symbols is shortened in two ways with one history, which keeps the origin only and does not tell the symbol left out (C147_violated). Proved: origins of all rules; the mark of the symbol left out when the symbol that stays is not nullable; histories of the returned grammar."
  },
  {
   "property": "C148",
   "status": "partial",
   "theorems": [
    "Verif.C148_histories_partial",
    "Verif.C148_violated"
   ],
   "note": "Violated: rules of new symbols made for a sequence with a history have its origin (C148_violated). Proved: the exact histories of all rules made, in grammars without a limit or with one of at least three symbols."
  },
  {
   "property": "C149",
   "status": "proved",
   "theorems": [
    "Verif.C149_rules"
   ],
   "note": ""
  },
  {
   "property": "C150",
   "status": "proved",
   "theorems": [
    "Verif.Advanced.C150_prepare_advanced",
    "Verif.C150_prepare",
    "Verif.C150_prepare_text"
   ],
   "note": ""
  },
  {
   "property": "C151",
   "status": "partial",
   "theorems": [
    "Verif.C151_violated",
    "Verif.C151_violated_removed",
    "Verif.C151_removed_partial",
    "Verif.C151_rewritten_partial"
   ],
   "note": "Violated: both passes may remove all rules of a symbol that stays on the right of a rule (C151_violated, C151_violated_removed). Proved: exactly which symbols are terminals afterwards, and that none changes sides in rewrite_cycles when the symbols on cycles are productive."
  },
  {
   "property": "C152",
   "status": "proved",
   "theorems": [
    "Verif.C152_predict",
    "Verif.C152_usefulness",
    "Verif.C152_lengths",
    "Verif.C152_language"
   ],
   "note": ""
  },
  {
   "property": "C153",
   "status": "proved",
   "theorems": [
    "Verif.Advanced.C153_prepare_cycles_advanced",
    "Verif.C153_prepare_cycles",
    "Verif.C153_prepare_cycles_text"
   ],
   "note": ""
  },
  {
   "property": "C154",
   "status": "partial",
   "theorems": [
    "Verif.C154_left_partial",
    "Verif.C154_violated_unproductive",
    "Verif.C154_violated_empty"
   ],
   "note": "False as stated (two witnesses proved): unproductive left-recursive symbols, and symbols that derive only the empty string at the end of the input, are not noticed. Proved for the nonterminal itself and for reached symbols that derive a string that is not empty or that a terminal can follow, when all reached symbols are productive and nullable symbols at the front of right sides derive only the empty string; whether the last condition is needed is open."
  }
 ]
}