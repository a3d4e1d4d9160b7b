{
 "claims": [
  {
   "property": "C01",
   "status": "proved",
   "theorems": [
    "Xbnf.Props.C01_next_reads_text",
    "Xbnf.Props.C05_stream_is_list"
   ],
   "note": "Also follows from the refinement of a stream to a list of characters, C05_stream_is_list."
  },
  {
   "property": "C02",
   "status": "proved",
   "theorems": [
    "Xbnf.Props.C02_peek_is_next",
    "Xbnf.Props.C02_observers_pure",
    "Xbnf.Props.C02_observers_do_not_disturb",
    "Xbnf.Props.C02_position_changes_lookup"
   ],
   "note": "C02_position_changes_lookup records the one visible effect of an observer: Position can change a later PositionLookup answer."
  },
  {
   "property": "C03",
   "status": "proved",
   "theorems": [
    "Xbnf.Props.C03_skipSpaces",
    "Xbnf.Props.C03_whitespace_table"
   ],
   "note": ""
  },
  {
   "property": "C04",
   "status": "proved",
   "theorems": [
    "Xbnf.Props.C04_match_iff",
    "Xbnf.Props.C04_match_reads",
    "Xbnf.Props.C04_commonPrefix"
   ],
   "note": ""
  },
  {
   "property": "C05",
   "status": "proved",
   "theorems": [
    "Xbnf.Props.C05_stream_is_list",
    "Xbnf.Props.C05_pushed_back_first",
    "Xbnf.Props.C05_below_untouched"
   ],
   "note": ""
  },
  {
   "property": "C06",
   "status": "proved",
   "theorems": [
    "Xbnf.Props.C06_position_correct",
    "Xbnf.Props.C06_position_above"
   ],
   "note": ""
  },
  {
   "property": "C07",
   "status": "partial",
   "theorems": [
    "Xbnf.Props.C07_lookup_correct_partial",
    "Xbnf.Props.C07_position_pushed_back_partial",
    "Xbnf.Props.C07_lookup_counterexample",
    "Xbnf.Props.C07_lookup_first_line",
    "Xbnf.Props.C07_lookup_outside",
    "Xbnf.Props.C07_lookup_zero_unread"
   ],
   "note": "The full claim is false of the code: characters of the first line get no position once its newline was seen. The counterexample and the exact answer are proved."
  },
  {
   "property": "C08",
   "status": "proved",
   "theorems": [
    "Xbnf.Props.C08_cursor_counts",
    "Xbnf.Props.C08_cursor_of_text",
    "Xbnf.Props.C08_cursor_after_pushBack"
   ],
   "note": ""
  },
  {
   "property": "C09",
   "status": "partial",
   "theorems": [
    "Xbnf.Props.C09_every_character_once",
    "Xbnf.Props.C09_reads_text",
    "Xbnf.Props.C09_as_if_one",
    "Xbnf.Props.C09_program_order",
    "Xbnf.Props.C09_no_deadlock",
    "Xbnf.Props.C09_linearizable_partial",
    "Xbnf.Props.C09_position_partial",
    "Xbnf.Props.C09_counterexample"
   ],
   "note": "Every character once, the reading calls in order, program order and freedom from deadlock hold for all programs and schedules. As-if-sequential including lines and columns is proved when one goroutine alone asks for positions; with two it is false (Position writes the line table under the read lock), which the counterexample shows. Streams with pushed-back characters are not shared in this model."
  },
  {
   "property": "C10",
   "status": "partial",
   "theorems": [
    "Xbnf.Props.C10_tree_follows_grammar_partial",
    "Xbnf.Props.C10_tree_follows_grammar_plain_partial",
    "Xbnf.Props.C10_counterexample"
   ],
   "note": "Every tree follows the grammar once rules with character ranges are set aside for white space; the counterexample is the range bug."
  },
  {
   "property": "C11",
   "status": "proved",
   "theorems": [
    "Xbnf.Props.C11_option_never_fails",
    "Xbnf.Props.C11_optional_rules_always_match",
    "Xbnf.Props.C11_optional_part_is_never_to_blame"
   ],
   "note": ""
  },
  {
   "property": "C12",
   "status": "partial",
   "theorems": [
    "Xbnf.Props.C12_bounds",
    "Xbnf.Props.C12_min_zero_never_fails",
    "Xbnf.Props.C12_repetition_exact_partial",
    "Xbnf.Props.C12_counterexample"
   ],
   "note": "The bounds hold always. That the children are exactly the consecutive matches holds whenever the reference semantics gives an answer (Regular: no look-ahead is lost); C12_counterexample shows the code failing otherwise."
  },
  {
   "property": "C13",
   "status": "partial",
   "theorems": [
    "Xbnf.Props.C13_choice_longest_partial",
    "Xbnf.Props.C13_choice_fails_partial",
    "Xbnf.Props.C13_counterexample"
   ],
   "note": "Holds when Regular; the counterexample is the order-dependent tie check."
  },
  {
   "property": "C14",
   "status": "partial",
   "theorems": [
    "Xbnf.Props.C14_concatenation_partial",
    "Xbnf.Props.C14_counterexample"
   ],
   "note": "Holds when Regular; the counterexample is look-ahead read twice."
  },
  {
   "property": "C15",
   "status": "proved",
   "theorems": [
    "Xbnf.Props.C15_reference",
    "Xbnf.Props.C15_plain_reference",
    "Xbnf.Props.C15_flip_twice",
    "Xbnf.Props.C15_undefined"
   ],
   "note": ""
  },
  {
   "property": "C16",
   "status": "proved",
   "theorems": [
    "Xbnf.Props.C16_literal_matches",
    "Xbnf.Props.C16_literal_fails",
    "Xbnf.Props.C16_char_matches",
    "Xbnf.Props.C16_char_fails"
   ],
   "note": ""
  },
  {
   "property": "C17",
   "status": "partial",
   "theorems": [
    "Xbnf.Props.C17_range_matches_partial",
    "Xbnf.Props.C17_range_fails_partial",
    "Xbnf.Props.C17_counterexample"
   ],
   "note": "Holds unless skippable white space at or above the first end is in the way, where the code's comparison is wrong (counterexample)."
  },
  {
   "property": "C18",
   "status": "partial",
   "theorems": [
    "Xbnf.Props.C18_block_partial",
    "Xbnf.Props.C18_block_fails_partial",
    "Xbnf.Props.C18_literal_partial",
    "Xbnf.Props.C18_escape_diverges",
    "Xbnf.Props.C18_counterexample",
    "Xbnf.Props.C18_exclude_counterexample",
    "Xbnf.Props.C18_apart_needed",
    "Xbnf.Props.C18_longer_counterexample",
    "Xbnf.Props.C18_readme"
   ],
   "note": "C18_block_partial: any rules as parts, when Regular (no escape met). C18_literal_partial: blocks of literals with escapes, for every text; asked: no two excluded texts begin alike, and the escape is a single character or there are excluded texts. Without these the code loses characters (C18_apart_needed) or never ends (C18_escape_diverges); an escape before anything but a close or an excluded text is put into the content twice (C18_counterexample); the place after the block is right unless a part is longer than the close (C18_longer_counterexample)."
  },
  {
   "property": "C19",
   "status": "proved",
   "theorems": [
    "Xbnf.Props.C19_eval_never_panics",
    "Xbnf.Props.C19_evalRule_never_panics",
    "Xbnf.Props.C19_evalEmbed_never_panics",
    "Xbnf.Props.C19_evalRaw_never_panics"
   ],
   "note": ""
  },
  {
   "property": "C20",
   "status": "partial",
   "theorems": [
    "Xbnf.Props.C20_failure_gives_back_partial",
    "Xbnf.Props.C20_counterexample"
   ],
   "note": "Holds when Regular and not ambiguous; an ambiguous choice keeps what it read."
  },
  {
   "property": "C21",
   "status": "partial",
   "theorems": [
    "Xbnf.Props.C21_read_is_consumed_partial",
    "Xbnf.Props.C21_counterexample"
   ],
   "note": "Holds when Regular; blocks with an escape report characters twice."
  },
  {
   "property": "C22",
   "status": "partial",
   "theorems": [
    "Xbnf.Props.C22_terminates_partial",
    "Xbnf.Props.C22_counterexample",
    "Xbnf.Props.C22_nullable_repetition_diverges",
    "Xbnf.Props.C22_left_recursion_diverges"
   ],
   "note": "Proved up to the inputs on which look-ahead is lost; on one of those the code provably never ends (C22_counterexample). Both conditions on the grammar are shown to be needed."
  },
  {
   "property": "C23",
   "status": "partial",
   "theorems": [
    "Xbnf.Props.C23_embed_partial",
    "Xbnf.Props.C23_nothing_lost_partial",
    "Xbnf.Props.C23_returns_partial",
    "Xbnf.Props.C23_children",
    "Xbnf.Props.C23_unknown",
    "Xbnf.Props.C23_counterexample",
    "Xbnf.Props.C23_endless"
   ],
   "note": "The shape of the children holds always. That the sample is covered holds where the rule is unambiguous and regular at every place; otherwise characters can be dropped (C23_counterexample)."
  },
  {
   "property": "C24",
   "status": "partial",
   "theorems": [
    "Xbnf.Props.C24_document_partial",
    "Xbnf.Props.C24_text_partial",
    "Xbnf.Props.C24_eval_text_partial",
    "Xbnf.Props.C24_returns_partial",
    "Xbnf.Props.C24_nodes",
    "Xbnf.Props.C24_some_node",
    "Xbnf.Props.C24_empty",
    "Xbnf.Props.C24_counterexample",
    "Xbnf.Props.C24_trailing_space"
   ],
   "note": "False in full: characters looked at in an earlier round are dropped when a later round looks less far (C24_counterexample). Holds for orderly documents; that the nodes are root trees holds always."
  },
  {
   "property": "C25",
   "status": "partial",
   "theorems": [
    "Xbnf.Props.C25_order_partial",
    "Xbnf.Props.C25_single_root",
    "Xbnf.Props.C25_counterexample"
   ],
   "note": "False in full: with three roots acceptance can depend on the map order (C25_counterexample). Holds for orderly documents, and always when there is one root."
  },
  {
   "property": "C26",
   "status": "proved",
   "theorems": [
    "Xbnf.Props.C26_removeVirtual",
    "Xbnf.Props.C26_removeVirtual_node",
    "Xbnf.Props.C26_none_left",
    "Xbnf.Props.chains_determine"
   ],
   "note": "chains_determine shows that the chains used in the statement determine the trees."
  },
  {
   "property": "C27",
   "status": "proved",
   "theorems": [
    "Xbnf.Props.C27_removeNonData",
    "Xbnf.Props.C27_removeNonData_node",
    "Xbnf.Props.C27_none_left",
    "Xbnf.Props.C27_commute"
   ],
   "note": ""
  },
  {
   "property": "C28",
   "status": "proved",
   "theorems": [
    "Xbnf.Props.C28_merge",
    "Xbnf.Props.C28_no_sticky",
    "Xbnf.Props.C28_characters",
    "Xbnf.Props.C28_text",
    "Xbnf.Props.C28_exact_text_partial",
    "Xbnf.Props.C28_counterexample"
   ],
   "note": "The text of inner nodes can gain spaces (C28_counterexample); it is unchanged when every sticky node has text (C28_exact_text_partial)."
  },
  {
   "property": "C29",
   "status": "proved",
   "theorems": [
    "Xbnf.Props.C29_kept",
    "Xbnf.Props.C29_text",
    "Xbnf.Props.C29_self",
    "Xbnf.Props.C29_reduced",
    "Xbnf.Props.C29_ast",
    "Xbnf.Props.C29_text_counterexample"
   ],
   "note": "White space inside texts can change (C29_text_counterexample)."
  },
  {
   "property": "C30",
   "status": "proved",
   "theorems": [
    "Xbnf.Props.C30_raw",
    "Xbnf.Props.C30_no_sticky",
    "Xbnf.Props.C30_no_virtual",
    "Xbnf.Props.C30_no_nondata",
    "Xbnf.Props.C30_eval",
    "Xbnf.Props.C30_levels",
    "Xbnf.Props.C30_basic_text",
    "Xbnf.Props.C30_eval_text"
   ],
   "note": ""
  },
  {
   "property": "C31",
   "status": "proved",
   "theorems": [
    "Xbnf.Props.C31_unique",
    "Xbnf.Props.C31_second_rejected",
    "Xbnf.Props.C31_stays"
   ],
   "note": ""
  },
  {
   "property": "C32",
   "status": "proved",
   "theorems": [
    "Xbnf.Props.C32_accepts",
    "Xbnf.Props.C32_rejects",
    "Xbnf.Props.C32_closed",
    "Xbnf.Props.C32_roots",
    "Xbnf.Props.C32_terminals",
    "Xbnf.Props.C32_no_undefined",
    "Xbnf.Props.C32_undefined_true",
    "Xbnf.Props.C32_validate_closed",
    "Xbnf.Props.C32_references_recorded",
    "Xbnf.Props.C32_built_roots",
    "Xbnf.Props.C32_built_roots_are_rules",
    "Xbnf.Props.C32_stale_root"
   ],
   "note": "C32_stale_root: a grammar that is built by calls and validated twice can keep a root that is no longer one; the claim is about grammars made from a text."
  },
  {
   "property": "C33",
   "status": "proved",
   "theorems": [
    "Xbnf.Props.C33_line",
    "Xbnf.Props.C33_every_line",
    "Xbnf.Props.C32_accepts"
   ],
   "note": ""
  },
  {
   "property": "C34",
   "status": "proved",
   "theorems": [
    "Xbnf.Props.C34_parse_ends",
    "Xbnf.Props.C34_parseRule_ends",
    "Xbnf.Props.C34_addRule_ends",
    "Xbnf.Props.C34_fromString_ends"
   ],
   "note": ""
  },
  {
   "property": "C35",
   "status": "proved",
   "theorems": [
    "Xbnf.Props.C35_names",
    "Xbnf.Props.C35_bad_rejected"
   ],
   "note": ""
  },
  {
   "property": "C36",
   "status": "partial",
   "theorems": [
    "Xbnf.Props.C36_round_trip_partial",
    "Xbnf.Props.C36_notation_partial",
    "Xbnf.Props.C36_counterexample"
   ],
   "note": "False of the code in eleven ways (C36_counterexample); holds for the rules of Spec/Printing.lean, which leave those shapes out."
  },
  {
   "property": "C37",
   "status": "partial",
   "theorems": [
    "Xbnf.Props.C37_rules_kept",
    "Xbnf.Props.C37_evaluation_kept",
    "Xbnf.Props.C37_later_definitions_kept",
    "Xbnf.Props.C37_validate_partial",
    "Xbnf.Props.C37_validate_no_better",
    "Xbnf.Props.C37_counterexample"
   ],
   "note": "Rules and evaluations are kept always. Validate can reject the grammar because of references in the rejected definition (C37_counterexample); it gives the same verdict when those names are referred to anyway."
  },
  {
   "property": "C38",
   "status": "proved",
   "theorems": [
    "Xbnf.Props.C38_well_formed",
    "Xbnf.Props.C38_records"
   ],
   "note": ""
  },
  {
   "property": "C39",
   "status": "partial",
   "theorems": [
    "Xbnf.Props.C39_escape",
    "Xbnf.Props.C39_alone",
    "Xbnf.Props.C39_range",
    "Xbnf.Props.C39_rejected",
    "Xbnf.Props.C39_char_literal",
    "Xbnf.Props.C39_string",
    "Xbnf.Props.C39_string_partial",
    "Xbnf.Props.C39_literal_rejected",
    "Xbnf.Props.C39_counterexample"
   ],
   "note": "False for surrogates inside a string, which become U+FFFD (C39_counterexample); holds for everything else."
  },
  {
   "property": "C40",
   "status": "proved",
   "theorems": [
    "Xbnf.Props.C40_eof"
   ],
   "note": ""
  },
  {
   "property": "C41",
   "status": "proved",
   "theorems": [
    "Xbnf.Props.C41_only_what_is_left_matters",
    "Xbnf.Props.C41_same_termination",
    "Xbnf.Props.C41_text",
    "Xbnf.Props.C41_errors"
   ],
   "note": ""
  },
  {
   "property": "C42",
   "status": "proved",
   "theorems": [
    "Xbnf.Props.C42_only_consumes",
    "Xbnf.Props.C42_position_after"
   ],
   "note": ""
  },
  {
   "property": "C43",
   "status": "proved",
   "theorems": [
    "Xbnf.Props.C43_accepted",
    "Xbnf.Props.C43_evalRule",
    "Xbnf.Props.C43_evalEmbed",
    "Xbnf.Props.C43_roots",
    "Xbnf.Props.C43_evalRaw"
   ],
   "note": ""
  },
  {
   "property": "C44",
   "status": "proved",
   "theorems": [
    "Xbnf.Props.C44_removeVirtual_idempotent",
    "Xbnf.Props.C44_removeNonData_idempotent",
    "Xbnf.Props.C44_merge_idempotent",
    "Xbnf.Props.C44_merge_nothing",
    "Xbnf.Props.C44_removeRedundant_idempotent"
   ],
   "note": ""
  },
  {
   "property": "C45",
   "status": "partial",
   "theorems": [
    "Xbnf.Props.C45_virtual_partial",
    "Xbnf.Props.C45_nonData_partial",
    "Xbnf.Props.C45_counterexample"
   ],
   "note": "False of the code: a merged token takes the marks of its first node. Holds when no sticky node is or contains a marked node."
  },
  {
   "property": "C46",
   "status": "partial",
   "theorems": [
    "Xbnf.Props.C46_text_is_used_partial",
    "Xbnf.Props.C46_counterexample"
   ],
   "note": "Holds when Regular; where look-ahead is read twice the tree repeats characters (C46_counterexample)."
  },
  {
   "property": "C47",
   "status": "proved",
   "theorems": [
    "Xbnf.Props.C47_error_reported"
   ],
   "note": ""
  },
  {
   "property": "C48",
   "status": "proved",
   "theorems": [
    "Xbnf.Props.C48_notation",
    "Xbnf.Props.C48_unambiguous",
    "Xbnf.Props.C48_rejected",
    "Xbnf.Props.C48_accepted",
    "Xbnf.Props.C48_parseRule",
    "Xbnf.Props.C48_addRule",
    "Xbnf.Props.C48_eof_marks"
   ],
   "note": ""
  },
  {
   "property": "C49",
   "status": "proved",
   "theorems": [
    "Xbnf.Props.C49_line",
    "Xbnf.Props.C49_no_line",
    "Xbnf.Props.C49_first",
    "Xbnf.Props.C49_duplicate"
   ],
   "note": "The fault (Spec/Calls.lean Fault) has the name of the rule and the reason; for a text that is no definition the reason is true of the text (Spec/Cause.lean)."
  },
  {
   "property": "C50",
   "status": "partial",
   "theorems": [
    "Xbnf.Props.C50_evalRule_partial",
    "Xbnf.Props.C50_document_partial",
    "Xbnf.Props.C50_leaves_evalRule_partial",
    "Xbnf.Props.C50_leaves_document_partial",
    "Xbnf.Props.C50_embed_partial",
    "Xbnf.Props.C50_leaves_embed_partial",
    "Xbnf.Props.C50_range",
    "Xbnf.Props.C50_group",
    "Xbnf.Props.C50_leading_space"
   ],
   "note": "False in full: ranges, groups and character sequences that begin with white space carry another position or none, and C07.  Proved for regular evaluations, orderly documents and samples of EvalEmbed that are unambiguous throughout, with the position every kind of node really carries (Spec/Places.lean); the positions after simplification of the tree are in C26-C30."
  },
  {
   "property": "C51",
   "status": "partial",
   "theorems": [
    "Xbnf.Props.C51_choice_partial",
    "Xbnf.Props.C51_concat_partial",
    "Xbnf.Props.C51_repetition_partial",
    "Xbnf.Props.C51_block_partial",
    "Xbnf.Props.C51_terminal",
    "Xbnf.Props.C51_eof",
    "Xbnf.Props.C51_terminal_ok",
    "Xbnf.Props.C51_passed",
    "Xbnf.Props.C51_undefined",
    "Xbnf.Props.C51_index",
    "Xbnf.Props.C51_no_cause"
   ],
   "note": "False at the beginning of a text: alternatives that fail at index 0 do not count, and the error of the choice then has no cause (C51_no_cause).  Otherwise proved for regular evaluations; the bound on ErrIdx and the errors of terminals for all."
  },
  {
   "property": "C52",
   "status": "proved",
   "theorems": [
    "Xbnf.Props.C52_nodes",
    "Xbnf.Props.C52_tokens",
    "Xbnf.Props.C52_sticky",
    "Xbnf.Props.C52_ast",
    "Xbnf.Props.C52_unique"
   ],
   "note": ""
  },
  {
   "property": "C53",
   "status": "partial",
   "theorems": [
    "Xbnf.Props.C53_characters",
    "Xbnf.Props.C53_leaf",
    "Xbnf.Props.C53_block",
    "Xbnf.Props.C53_sticky",
    "Xbnf.Props.C53_between",
    "Xbnf.Props.C53_first",
    "Xbnf.Props.C53_last",
    "Xbnf.Props.C53_ast",
    "Xbnf.Props.C53_ast_counterexample"
   ],
   "note": "Proved for nodes.  False for an AST, whose Text puts nothing between its trees (C53_ast_counterexample); C53_ast says what it is."
  },
  {
   "property": "C54",
   "status": "proved",
   "theorems": [
    "Xbnf.Props.C54_tree",
    "Xbnf.Props.C54_lines",
    "Xbnf.Props.C54_header",
    "Xbnf.Props.C54_leaf",
    "Xbnf.Props.C54_ast",
    "Xbnf.Props.C54_eval",
    "Xbnf.Props.C54_evalRule",
    "Xbnf.Props.C54_evalEmbed",
    "Xbnf.Props.C54_result"
   ],
   "note": "C54_header is for names without '/' and a config that prints rule types; rune lists stand for the Go strings."
  },
  {
   "property": "C55",
   "status": "partial",
   "theorems": [
    "Xbnf.Props.C55_eval",
    "Xbnf.Props.C55_text",
    "Xbnf.Props.C55_rest",
    "Xbnf.Props.C55_next_matters",
    "Xbnf.Props.C55_evalRaw",
    "Xbnf.Props.C55_evalAST",
    "Xbnf.Props.C55_evalRule_partial",
    "Xbnf.Props.C55_counterexample"
   ],
   "note": "Proved for rule.Eval, EvalRaw and Eval, in terms of the cursor.  That CharsRead of EvalRule tells how far it read is proved for regular evaluations; a block with ambiguous excludes loses characters and reports fewer (C55_counterexample)."
  },
  {
   "property": "C56",
   "status": "proved",
   "theorems": [
    "Xbnf.Props.C56_accepted",
    "Xbnf.Props.C56_evalRule",
    "Xbnf.Props.C56_evalEmbed",
    "Xbnf.Props.C56_roots",
    "Xbnf.Props.C56_evalRaw",
    "Xbnf.Props.C56_evalRaw_back",
    "Xbnf.Props.C56_eval",
    "Xbnf.Props.C56_tree",
    "Xbnf.Props.C56_simplify"
   ],
   "note": ""
  },
  {
   "property": "C57",
   "status": "partial",
   "theorems": [
    "Xbnf.Props.C57_explained",
    "Xbnf.Props.C57_explained_evalRule",
    "Xbnf.Props.C57_message",
    "Xbnf.Props.C57_message_reachable",
    "Xbnf.Props.C57_text",
    "Xbnf.Props.C57_shown",
    "Xbnf.Props.C57_bounds_told",
    "Xbnf.Props.C57_true_partial",
    "Xbnf.Props.C57_true_evalRule_partial",
    "Xbnf.Props.C57_nil",
    "Xbnf.Props.C57_true_counterexample",
    "Xbnf.Props.C57_space_counterexample"
   ],
   "note": "C57_shown, C57_bounds_told: the description of a rule contains those of all parts not hidden behind a name, and the bounds of a repetition can be read off it. That an error is true of the text: regular evaluations, positions up to the defect of C07, and not for literals of white space only; false otherwise (C57_true_counterexample, C57_space_counterexample). The error of a choice none of whose alternatives comes further than the beginning of the text says nothing (C57_nil)."
  },
  {
   "property": "C58",
   "status": "proved",
   "theorems": [
    "Xbnf.Props.C58_clean",
    "Xbnf.Props.C58_evalRule_returns",
    "Xbnf.Props.C58_evalRule",
    "Xbnf.Props.C58_gives_back",
    "Xbnf.Props.C58_local",
    "Xbnf.Props.C58_one_alternative",
    "Xbnf.Props.C58_choice",
    "Xbnf.Props.C58_embed",
    "Xbnf.Props.C58_orderly",
    "Xbnf.Props.C58_document",
    "Xbnf.Props.C58_three_roots_counterexample"
   ],
   "note": "For these grammars the partial theorems on C12-C14, C18, C20-C25, C46, C50, C51, C55 and C57 hold without condition: C58_clean supplies the hypothesis Regular (or Clean), C58_orderly the hypothesis Orderly. Texts with white space above U+0020 (U+0085, U+00A0) are left out: a range can match them. The check is computable (Certificate.ok, certify) and is run in the kernel on a grammar of expressions and one of values. With three roots the part on documents is false: C58_three_roots_counterexample."
  },
  {
   "property": "C59",
   "status": "proved",
   "theorems": [
    "Xbnf.Props.C59_sound",
    "Xbnf.Props.C59_complete",
    "Xbnf.Props.C59_accepts",
    "Xbnf.Props.C59_unambiguous",
    "Xbnf.Props.C59_document",
    "Xbnf.Props.C59_sound_partial"
   ],
   "note": "The language is Spec/Language.lean (Derives, Reads); the check is Sets.ok and Sets.rootsOk, computable, run in the kernel on the two grammars of C58. Blocks and terminals count as tokens: what they match is C16-C18 and C40. Without the check the claim is false: C59_counterexample ({ 'x' } 'x' on x). C59_sound_partial is soundness for any grammar, for regular evaluations."
  },
  {
   "property": "C60",
   "status": "proved",
   "theorems": [
    "Xbnf.Props.C60_rules",
    "Xbnf.Props.C60_order",
    "Xbnf.Props.C60_aligned",
    "Xbnf.Props.C60_text",
    "Xbnf.Props.C60_marks",
    "Xbnf.Props.C60_read_back",
    "Xbnf.Props.C60_lines",
    "Xbnf.Props.C60_outline",
    "Xbnf.Props.C60_detail"
   ],
   "note": "Root rules and reference map: grammars all of whose definitions were accepted; a rejected definition leaves wrong entries behind (C60_rejected_counterexample, the defect of C37). The line by line view (C60_lines, C60_outline, C60_detail) is for rules that print without a newline, see C60_newline_counterexample. The result view is C54_result."
  },
  {
   "property": "C61",
   "status": "partial",
   "theorems": [
    "Xbnf.Props.C61_agrees",
    "Xbnf.Props.C61_no_match",
    "Xbnf.Props.C61_ambiguity",
    "Xbnf.Props.C61_no_match_text",
    "Xbnf.Props.C61_ambiguity_text",
    "Xbnf.Props.C61_text",
    "Xbnf.Props.C61_true_partial",
    "Xbnf.Props.C61_order_partial",
    "Xbnf.Props.C61_alias_counterexample",
    "Xbnf.Props.C61_position_counterexample"
   ],
   "note": "The forms of the text and the reasons of the root rules hold for all grammars and documents (C24_empty and C24_some_node for the other two errors). Where the errors come up, that they are true, and that the order of the maps does not matter: orderly documents, positions left out of the comparison. Root rules that are only other names for a rule are not named in an ambiguity (C61_alias_counterexample)."
  },
  {
   "property": "C62",
   "status": "proved",
   "theorems": [
    "Xbnf.Props.C62_read",
    "Xbnf.Props.C62_write",
    "Xbnf.Props.C62_bytes",
    "Xbnf.Props.C62_valid",
    "Xbnf.Props.C62_grammar",
    "Xbnf.Props.C62_addRule",
    "Xbnf.Props.C62_lookup",
    "Xbnf.Props.C62_eval",
    "Xbnf.Props.C62_indent",
    "Xbnf.Props.C62_bytes_counterexample"
   ],
   "note": "The functions of Go's packages strings and utf8 are modelled after their documentation and source (trusted). Bytes that are not well-formed do not come back (C62_bytes_counterexample)."
  },
  {
   "property": "C63",
   "status": "partial",
   "theorems": [
    "Xbnf.Props.C63_parseRule",
    "Xbnf.Props.C63_addRule",
    "Xbnf.Props.C63_unheard_parseRule",
    "Xbnf.Props.C63_unheard_addRule",
    "Xbnf.Props.C63_unheard_text",
    "Xbnf.Props.C63_undefined",
    "Xbnf.Props.C63_undefined_any",
    "Xbnf.Props.C63_line_text",
    "Xbnf.Props.C63_shown_text",
    "Xbnf.Props.C63_line_read",
    "Xbnf.Props.C63_message",
    "Xbnf.Props.C63_shown",
    "Xbnf.Props.C63_first_char_partial",
    "Xbnf.Props.C63_first_char_wrong",
    "Xbnf.Props.C63_end_shown"
   ],
   "note": "All of it is proved except that a name starting with a character outside ASCII is shown with the wrong character (C63_first_char_wrong) and that the end of the text is shown as U+FFFD (C63_end_shown), so that C63_message leaves these messages out."
  },
  {
   "property": "C64",
   "status": "partial",
   "theorems": [
    "Xbnf.Props.C64_run",
    "Xbnf.Props.C64_rules",
    "Xbnf.Props.C64_file",
    "Xbnf.Props.C64_file_error",
    "Xbnf.Props.C64_tree",
    "Xbnf.Props.C64_no_panic",
    "Xbnf.Props.C64_ends",
    "Xbnf.Props.C64_rules_need_file",
    "Xbnf.Props.C64_undefined_used",
    "Xbnf.Props.C64_stale_root",
    "Xbnf.Props.C64_virtual_kept"
   ],
   "note": "All of it is proved except the last sentence, which is false: without a file the rules of the command line are never used (C64_rules_need_file), and a root rule of the file stays a root rule though a rule of the command line refers to it (C64_stale_root). A grammar with an undefined rule is reported and used nevertheless (C64_undefined_used), and virtual nodes are removed after Eval has joined them with others, so that their text can remain (C64_virtual_kept). Package flag and the help text are not modelled."
  },
  {
   "property": "C65",
   "status": "proved",
   "theorems": [
    "Xbnf.Props.C65_same_rules",
    "Xbnf.Props.C65_later_calls",
    "Xbnf.Props.C65_text",
    "Xbnf.Props.C65_document",
    "Xbnf.Props.C65_only_needed"
   ],
   "note": "C65_case is a pair of texts that meets the hypotheses."
  },
  {
   "property": "C66",
   "status": "proved",
   "theorems": [
    "Xbnf.Props.C66_written",
    "Xbnf.Props.C66_longest",
    "Xbnf.Props.C66_whole",
    "Xbnf.Props.C66_finite",
    "Xbnf.Props.C66_chars",
    "Xbnf.Props.C66_apart_needed",
    "Xbnf.Props.C66_empty",
    "Xbnf.Props.C66_newline"
   ],
   "note": "C66_apart_needed shows that the condition on white space is needed, C66_empty that an empty sample is read by no rule of this kind, C66_newline that a newline has to be written as an escape."
  },
  {
   "property": "C67",
   "status": "partial",
   "theorems": [
    "Xbnf.Props.C67_parentheses_partial",
    "Xbnf.Props.C67_predictive_partial",
    "Xbnf.Props.C67_text",
    "Xbnf.Props.C67_named",
    "Xbnf.Props.C67_option_counterexample",
    "Xbnf.Props.C67_regroup_counterexample",
    "Xbnf.Props.C67_ambiguous_counterexample"
   ],
   "note": "Partial because the code is wrong: the counterexamples show parentheses that do change what is matched. The positive part covers parentheses around any part that is not an option (nor a reference to one), at any depth, in regular evaluations."
  },
  {
   "property": "C68",
   "status": "proved",
   "theorems": [
    "Xbnf.Props.C68_rule",
    "Xbnf.Props.C68_embed",
    "Xbnf.Props.C68_raw",
    "Xbnf.Props.C68_text"
   ],
   "note": "For EvalRaw the two grammars must have the same root rules, none of them introduced or removed. Longer chains of references follow by applying the theorem again."
  },
  {
   "property": "C69",
   "status": "proved",
   "theorems": [
    "Xbnf.Props.C69_text",
    "Xbnf.Props.C69_lines",
    "Xbnf.Props.C69_eval",
    "Xbnf.Props.C69_document",
    "Xbnf.Props.C69_order",
    "Xbnf.Props.C69_lines_differ"
   ],
   "note": "SameReason says how the reasons may differ: the line given for a duplicate, and white space around a quoted text without =. With Validate called in between, roots can be stale (C32_stale_root)."
  },
  {
   "property": "C70",
   "status": "proved",
   "theorems": [
    "Xbnf.Props.C70_accepted",
    "Xbnf.Props.C70_rule",
    "Xbnf.Props.C70_embed",
    "Xbnf.Props.C70_roots",
    "Xbnf.Props.C70_raw",
    "Xbnf.Props.C70_tree",
    "Xbnf.Props.C70_simplify",
    "Xbnf.Props.C70_eval",
    "Xbnf.Props.C70_levels_needed"
   ],
   "note": "For EvalRaw and Eval the same up to the order in which maps are visited, as everywhere. C70_levels_needed shows that the conditions on the level are needed."
  },
  {
   "property": "C71",
   "status": "partial",
   "theorems": [
    "Xbnf.Props.C71_token_partial",
    "Xbnf.Props.C71_ignored",
    "Xbnf.Props.C71_counterexample"
   ],
   "note": "False: the merging code ignores the mark (the code that looked at it is commented out). C71_ignored: $ has no effect at all on the shape of the trees, at any level. C71_token_partial: a node that is not sticky is kept, token or not."
  },
  {
   "property": "C72",
   "status": "partial",
   "theorems": [
    "Xbnf.Props.C72_rule_partial",
    "Xbnf.Props.C72_rule_exact_partial",
    "Xbnf.Props.C72_document_partial",
    "Xbnf.Props.C72_document_exact_partial",
    "Xbnf.Props.C72_predictive",
    "Xbnf.Props.C72_predictive_exact",
    "Xbnf.Props.C72_predictive_document",
    "Xbnf.Props.C72_predictive_document_exact",
    "Xbnf.Props.C72_counterexample",
    "Xbnf.Props.C72_leading_counterexample",
    "Xbnf.Props.C72_kind_counterexample"
   ],
   "note": "False in general: with look-ahead that is lost, the number of spaces decides which alternative is taken (C72_counterexample), and a range takes skipped white space for its match if it is beyond its end (C72_kind_counterexample). Proved for regular evaluations and orderly documents, and without these conditions for predictive grammars (C58) on texts whose white space is ASCII."
  },
  {
   "property": "C73",
   "status": "proved",
   "theorems": [
    "Xbnf.Props.C73_stream",
    "Xbnf.Props.C73_rule",
    "Xbnf.Props.C73_embed",
    "Xbnf.Props.C73_raw",
    "Xbnf.Props.C73_eval",
    "Xbnf.Props.C73_rule_untouched",
    "Xbnf.Props.C73_embed_untouched",
    "Xbnf.Props.C73_raw_untouched",
    "Xbnf.Props.C73_eval_untouched",
    "Xbnf.Props.C73_rule_own",
    "Xbnf.Props.C73_embed_own",
    "Xbnf.Props.C73_eval_own",
    "Xbnf.Props.C73_merge",
    "Xbnf.Props.C73_simplify",
    "Xbnf.Props.C73_two",
    "Xbnf.Props.C73_text"
   ],
   "note": "Arrays of runes and stream objects are in memory; nodes, lists of nodes and rules are values here too (see DESIGN.md)."
  },
  {
   "property": "C74",
   "status": "proved",
   "theorems": [
    "Xbnf.Props.C74_alone",
    "Xbnf.Props.C74_no_race",
    "Xbnf.Props.C74_no_wait",
    "Xbnf.Props.C74_end"
   ],
   "note": "Jobs are assumed to end when run alone (fuel suffices); they never panic (C19). Rules and grammars are only read by evaluation, so they are values here; the model of memory is that of C73, one access at a time. The example with two goroutines merging the same tree shows a race."
  },
  {
   "property": "C75",
   "status": "partial",
   "theorems": [
    "Xbnf.Props.C75_linear",
    "Xbnf.Props.C75_bound_partial",
    "Xbnf.Props.C75_tight",
    "Xbnf.Props.C75_exponential_counterexample",
    "Xbnf.Props.C75_fuel",
    "Xbnf.Props.C75_calls_det"
   ],
   "note": "False in general: a grammar of two rules needs 2^n calls on n characters. The linear bound is proved for predictive grammars (C58) and texts in which the white space is that of ASCII; for other grammars without left recursion the bound is K^(n+1) (C75_bound_partial: evaluations must be regular), and it cannot be better than exponential (C75_tight). Counted are the calls of IRule.Eval made by EvalRule, not the characters compared or copied."
  },
  {
   "property": "C76",
   "status": "partial",
   "theorems": [
    "Xbnf.Props.C76_document",
    "Xbnf.Props.C76_order",
    "Xbnf.Props.C76_embed_quadratic",
    "Xbnf.Props.C76_embed_bound_partial",
    "Xbnf.Props.C76_document_bound_partial",
    "Xbnf.Props.C76_embed_counterexample",
    "Xbnf.Props.C76_raw_fuel",
    "Xbnf.Props.C76_raw_det",
    "Xbnf.Props.C76_embed_fuel",
    "Xbnf.Props.C76_embed_det"
   ],
   "note": "Proved for predictive grammars (C58; documents: at most two roots, told apart by one character) and texts in which the white space is that of ASCII; the independence of the order for all Orderly documents. For other grammars no polynomial bound holds (C75). EvalEmbed is quadratic, with a matching lower bound. Without the check, but without left recursion, the number of calls for a document or a search is at most exponential (C76_embed_bound_partial, C76_document_bound_partial)."
  },
  {
   "property": "C77",
   "status": "partial",
   "theorems": [
    "Xbnf.Props.C77_rule_partial",
    "Xbnf.Props.C77_predictive",
    "Xbnf.Props.C77_document_partial",
    "Xbnf.Props.C77_simplify",
    "Xbnf.Props.C77_eval_partial",
    "Xbnf.Props.C77_embed_partial",
    "Xbnf.Props.C77_counterexample"
   ],
   "note": "No condition on the grammar; the evaluation must lose no characters (Regular, Orderly, Clean), which C58 guarantees for predictive grammars (C77_predictive). Without that the claim is false: C77_counterexample gives a rule whose tree grows with the square of the text and stands for more characters than the text has."
  },
  {
   "property": "C78",
   "status": "partial",
   "theorems": [
    "Xbnf.Props.C78_rule",
    "Xbnf.Props.C78_entire",
    "Xbnf.Props.C78_text",
    "Xbnf.Props.C78_document",
    "Xbnf.Props.C78_exact",
    "Xbnf.Props.C78_levels",
    "Xbnf.Props.C78_counterexample",
    "Xbnf.Props.C78_text_counterexample"
   ],
   "note": "EvalRule, EvalRaw and the text of a tree. If both texts end in white space or neither does, stickiness is the same too and the claim holds for Eval at every level (C78_exact, C78_levels). Without that condition the part about Eval is false: with a space at the end of the text an empty repetition before it is not sticky, and what is merged without the space is not merged with it (C78_counterexample). The text of a tree is not always accepted (C78_text_counterexample)."
  },
  {
   "property": "C79",
   "status": "proved",
   "theorems": [
    "Xbnf.Props.C79_rule",
    "Xbnf.Props.C79_rule_text",
    "Xbnf.Props.C79_two",
    "Xbnf.Props.C79_document",
    "Xbnf.Props.C79_document_text",
    "Xbnf.Props.C79_levels",
    "Xbnf.Props.C79_ends",
    "Xbnf.Props.pieces_spells",
    "Xbnf.Props.C79_exact",
    "Xbnf.Props.C79_document_exact",
    "Xbnf.Props.C79_levels_exact",
    "Xbnf.Props.counting_answers"
   ],
   "note": "Both directions. If cursors and positions are those of the library's own stream, everything is the same, positions and errors included (C79_exact). Where the outcome depends on the order in which maps are visited, each order over the one stream has an order over the other with the same outcome. Methods that panic or do not return, and other users of the stream between two calls, are outside the model."
  },
  {
   "property": "C80",
   "status": "proved",
   "theorems": [
    "Xbnf.Props.C80_rule",
    "Xbnf.Props.C80_document",
    "Xbnf.Props.C80_levels"
   ],
   "note": "No hypothesis on the implementation; its methods are total functions in the model. That the evaluation ends is not claimed: a stream without an end need not let it."
  },
  {
   "property": "C81",
   "status": "partial",
   "theorems": [
    "Xbnf.Props.C81_first",
    "Xbnf.Props.C81_whole_partial",
    "Xbnf.Props.C81_counterexample",
    "Xbnf.Props.C81_embed",
    "Xbnf.Props.C81_simplified_partial",
    "Xbnf.Props.C81_simplified_counterexample"
   ],
   "note": "C81_first and C81_embed hold without a condition on the rules. One tree exactly if the whole text is used: for regular evaluations; a block with an escape counts more characters used than there are. Eval against EvalRule with the simplifications: for trees that are not sticky and not marked as no data; for sticky ones the results differ."
  },
  {
   "property": "C82",
   "status": "partial",
   "theorems": [
    "Xbnf.Props.C82_same_trees",
    "Xbnf.Props.C82_together_partial",
    "Xbnf.Props.C82_many_partial",
    "Xbnf.Props.C82_counterexample",
    "Xbnf.Props.C82_end_counterexample"
   ],
   "note": "C82_same_trees: if the whole is accepted, its trees are those of the parts (also for a text with other white space between the parts). It is accepted if the last tree of each part but the last is not sticky. If it is sticky the claim is false: the next document is read without skipping white space (C82_counterexample: x and 'y y;' are documents, 'xy y;' is none)."
  },
  {
   "property": "C83",
   "status": "proved",
   "theorems": [
    "Xbnf.Props.C83_text",
    "Xbnf.Props.C83_node",
    "Xbnf.Props.C83_virtual",
    "Xbnf.Props.C83_nonData",
    "Xbnf.Props.C83_merge",
    "Xbnf.Props.C83_redundant",
    "Xbnf.Props.C83_simplify",
    "Xbnf.Props.C83_forest",
    "Xbnf.Props.C83_apart",
    "Xbnf.Props.C83_layout",
    "Xbnf.Props.C83_shared_counterexample",
    "Xbnf.Props.C83_cycle_counterexample"
   ],
   "note": "The methods once more over a memory of node objects, with separation: the footprint of a forest, what is written, what is not. C83_layout shows that every list of trees can be in memory. That EvalRaw makes every node once and links it into one parent is read off the source, not proved."
  },
  {
   "property": "C84",
   "status": "proved",
   "theorems": [
    "Xbnf.Props.C84_rule",
    "Xbnf.Props.C84_embed",
    "Xbnf.Props.C84_raw",
    "Xbnf.Props.C84_eval",
    "Xbnf.Props.C84_fair",
    "Xbnf.Props.C84_kept",
    "Xbnf.Props.C84_two",
    "Xbnf.Props.C84_then_simplify"
   ],
   "note": "The evaluators once more, over a memory of node objects (Model/NodeEval.lean), proved to agree with the evaluators on values: both end the same way, and the trees are a forest of new nodes while everything below the old allocation mark is unchanged. In the model a node with children is written once, when its children are known; the code writes some fields earlier, while nobody else has its address. The matched results of the roots are permuted by index, so that the same order can be given to both evaluators (C84_fair: all orders are covered)."
  },
  {
   "property": "C85",
   "status": "partial",
   "theorems": [
    "Xbnf.Props.C85_rule_partial",
    "Xbnf.Props.C85_predictive",
    "Xbnf.Props.C85_embed_partial",
    "Xbnf.Props.C85_document_partial",
    "Xbnf.Props.C85_counterexample",
    "Xbnf.Props.C85_groups_counterexample"
   ],
   "note": "Proved for every sample and document whose evaluation is regular (orderly) with both grammars, hence for all texts if both grammars are predictive (C58). False in full: C85_counterexample, r = 'a' | 'a' | 'ab' has no tree on ab, r = 'ab' | 'a' | 'a' has one."
  },
  {
   "property": "C86",
   "status": "partial",
   "theorems": [
    "Xbnf.Props.C86_choice_partial",
    "Xbnf.Props.C86_quiet_partial",
    "Xbnf.Props.C86_rule_partial",
    "Xbnf.Props.C86_predictive_partial",
    "Xbnf.Props.C86_embed_partial",
    "Xbnf.Props.C86_document_partial",
    "Xbnf.Props.C86_absent",
    "Xbnf.Props.C86_absent_string",
    "Xbnf.Props.C86_lower",
    "Xbnf.Props.C86_counterexample"
   ],
   "note": "C86_lower (groups of lower priority) holds without any condition. C86_choice_partial: one choice at one place; the new choice is not assumed to be regular. C86_rule_partial, C86_embed_partial, C86_document_partial: whole grammars, with alternatives of choices and excluded texts of blocks added at any depth, further rules and roots, on texts that both evaluate regularly; every text if both grammars are predictive (C86_predictive_partial). All that is new must match nowhere in the text, and the new alternatives must not report that white space may follow (excluded texts and roots may); C86_absent and C86_absent_string give conditions that can be read off the text. Without the last condition the claim is false: a string in double quotes that does not match still makes the choice report that white space may follow, so a text is accepted that was not, and another rejected that was accepted (C86_counterexample)."
  },
  {
   "property": "C87",
   "status": "partial",
   "theorems": [
    "Xbnf.Props.C87_lower",
    "Xbnf.Props.C87_lower_fails",
    "Xbnf.Props.C87_upper",
    "Xbnf.Props.C87_first",
    "Xbnf.Props.C87_option",
    "Xbnf.Props.C87_counterexample",
    "Xbnf.Props.C87_option_counterexample"
   ],
   "note": "Proved on every stream, without conditions on the rule or the text, except that an upper bound which the matches just reach changes nothing for the rules around: that is false, because the loop then does not look for another match, and a failed match can report that white space may follow (C87_counterexample). The matches themselves are the same also then (C87_first). That {x}<0,1> is like [x] holds of the rule itself before the end of the text (C87_option), but not of the rules around it (C87_option_counterexample)."
  }
 ]
}