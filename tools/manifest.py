import json
claims=[]
P="Xbnf.Props."
def c(p,s,t,n=""): claims.append(dict(property=p,status=s,theorems=[P+x for x in t.split()],note=n))
c("C01","proved","C01_next_reads_text C05_stream_is_list","Also follows from the refinement of a stream to a list of characters, C05_stream_is_list.")
c("C02","proved","C02_peek_is_next C02_observers_pure C02_observers_do_not_disturb C02_position_changes_lookup","C02_position_changes_lookup records the one visible effect of an observer: Position can change a later PositionLookup answer.")
c("C03","proved","C03_skipSpaces C03_whitespace_table")
c("C04","proved","C04_match_iff C04_match_reads C04_commonPrefix")
c("C05","proved","C05_stream_is_list C05_pushed_back_first C05_below_untouched")
c("C06","proved","C06_position_correct C06_position_above")
c("C07","partial","C07_lookup_correct_partial C07_position_pushed_back_partial C07_lookup_counterexample C07_lookup_first_line C07_lookup_outside C07_lookup_zero_unread","The full claim is false of the code: characters of the first line get no position once its newline was seen. The counterexample and the exact answer are proved.")
c("C08","proved","C08_cursor_counts C08_cursor_of_text C08_cursor_after_pushBack")
c("C09","partial","C09_every_character_once C09_reads_text C09_as_if_one C09_program_order C09_no_deadlock C09_linearizable_partial C09_position_partial C09_counterexample","Every character once, the reading calls in order, program order and freedom from deadlock hold for all programs and schedules. As-if-sequential including lines and columns is proved when one goroutine alone asks for positions; with two it is false (Position writes the line table under the read lock), which the counterexample shows. Streams with pushed-back characters are not shared in this model.")
c("C10","partial","C10_tree_follows_grammar_partial C10_tree_follows_grammar_plain_partial C10_counterexample","Every tree follows the grammar once rules with character ranges are set aside for white space; the counterexample is the range bug.")
c("C11","proved","C11_option_never_fails C11_optional_rules_always_match C11_optional_part_is_never_to_blame")
c("C12","partial","C12_bounds C12_min_zero_never_fails C12_repetition_exact_partial C12_counterexample","The bounds hold always. That the children are exactly the consecutive matches holds whenever the reference semantics gives an answer (Regular: no look-ahead is lost); C12_counterexample shows the code failing otherwise.")
c("C13","partial","C13_choice_longest_partial C13_choice_fails_partial C13_counterexample","Holds when Regular; the counterexample is the order-dependent tie check.")
c("C14","partial","C14_concatenation_partial C14_counterexample","Holds when Regular; the counterexample is look-ahead read twice.")
c("C15","proved","C15_reference C15_plain_reference C15_flip_twice C15_undefined")
c("C16","proved","C16_literal_matches C16_literal_fails C16_char_matches C16_char_fails")
c("C17","partial","C17_range_matches_partial C17_range_fails_partial C17_counterexample","Holds unless skippable white space at or above the first end is in the way, where the code's comparison is wrong (counterexample).")
c("C18","partial","C18_block_partial C18_block_fails_partial C18_literal_partial C18_escape_diverges C18_counterexample C18_exclude_counterexample C18_apart_needed C18_longer_counterexample C18_readme","C18_block_partial: any rules as parts, when Regular (no escape met). C18_literal_partial: blocks of literals with escapes, for every text; asked: no two excluded texts begin alike, and the escape is a single character or there are excluded texts. Without these the code loses characters (C18_apart_needed) or never ends (C18_escape_diverges); an escape before anything but a close or an excluded text is put into the content twice (C18_counterexample); the place after the block is right unless a part is longer than the close (C18_longer_counterexample).")
c("C19","proved","C19_eval_never_panics C19_evalRule_never_panics C19_evalEmbed_never_panics C19_evalRaw_never_panics")
c("C20","partial","C20_failure_gives_back_partial C20_counterexample","Holds when Regular and not ambiguous; an ambiguous choice keeps what it read.")
c("C21","partial","C21_read_is_consumed_partial C21_counterexample","Holds when Regular; blocks with an escape report characters twice.")
c("C22","partial","C22_terminates_partial C22_counterexample C22_nullable_repetition_diverges C22_left_recursion_diverges","Proved up to the inputs on which look-ahead is lost; on one of those the code provably never ends (C22_counterexample). Both conditions on the grammar are shown to be needed.")
c("C23","partial","C23_embed_partial C23_nothing_lost_partial C23_returns_partial C23_children C23_unknown C23_counterexample C23_endless","The shape of the children holds always. That the sample is covered holds where the rule is unambiguous and regular at every place; otherwise characters can be dropped (C23_counterexample).")
c("C24","partial","C24_document_partial C24_text_partial C24_eval_text_partial C24_returns_partial C24_nodes C24_some_node C24_empty C24_counterexample C24_trailing_space","False in full: characters looked at in an earlier round are dropped when a later round looks less far (C24_counterexample). Holds for orderly documents; that the nodes are root trees holds always.")
c("C25","partial","C25_order_partial C25_single_root C25_counterexample","False in full: with three roots acceptance can depend on the map order (C25_counterexample). Holds for orderly documents, and always when there is one root.")
c("C26","proved","C26_removeVirtual C26_removeVirtual_node C26_none_left chains_determine","chains_determine shows that the chains used in the statement determine the trees.")
c("C27","proved","C27_removeNonData C27_removeNonData_node C27_none_left C27_commute")
c("C28","proved","C28_merge C28_no_sticky C28_characters C28_text C28_exact_text_partial C28_counterexample","The text of inner nodes can gain spaces (C28_counterexample); it is unchanged when every sticky node has text (C28_exact_text_partial).")
c("C29","proved","C29_kept C29_text C29_self C29_reduced C29_ast C29_text_counterexample","White space inside texts can change (C29_text_counterexample).")
c("C30","proved","C30_raw C30_no_sticky C30_no_virtual C30_no_nondata C30_eval C30_levels C30_basic_text C30_eval_text")
c("C31","proved","C31_unique C31_second_rejected C31_stays")
c("C32","proved","C32_accepts C32_rejects C32_closed C32_roots C32_terminals C32_no_undefined C32_undefined_true C32_validate_closed C32_references_recorded C32_built_roots C32_built_roots_are_rules C32_stale_root","C32_stale_root: a grammar that is built by calls and validated twice can keep a root that is no longer one; the claim is about grammars made from a text.")
c("C33","proved","C33_line C33_every_line C32_accepts")
c("C34","proved","C34_parse_ends C34_parseRule_ends C34_addRule_ends C34_fromString_ends")
c("C35","proved","C35_names C35_bad_rejected")
c("C36","partial","C36_round_trip_partial C36_notation_partial C36_counterexample","False of the code in eleven ways (C36_counterexample); holds for the rules of Spec/Printing.lean, which leave those shapes out.")
c("C37","partial","C37_rules_kept C37_evaluation_kept C37_later_definitions_kept C37_validate_partial C37_validate_no_better C37_counterexample","Rules and evaluations are kept always. Validate can reject the grammar because of references in the rejected definition (C37_counterexample); it gives the same verdict when those names are referred to anyway.")
c("C38","proved","C38_well_formed C38_records")
c("C39","partial","C39_escape C39_alone C39_range C39_rejected C39_char_literal C39_string C39_string_partial C39_literal_rejected C39_counterexample","False for surrogates inside a string, which become U+FFFD (C39_counterexample); holds for everything else.")
c("C40","proved","C40_eof")
c("C41","proved","C41_only_what_is_left_matters C41_same_termination C41_text C41_errors")
c("C42","proved","C42_only_consumes C42_position_after")
c("C43","proved","C43_accepted C43_evalRule C43_evalEmbed C43_roots C43_evalRaw")
c("C44","proved","C44_removeVirtual_idempotent C44_removeNonData_idempotent C44_merge_idempotent C44_merge_nothing C44_removeRedundant_idempotent")
c("C45","partial","C45_virtual_partial C45_nonData_partial C45_counterexample","False of the code: a merged token takes the marks of its first node. Holds when no sticky node is or contains a marked node.")
c("C46","partial","C46_text_is_used_partial C46_counterexample","Holds when Regular; where look-ahead is read twice the tree repeats characters (C46_counterexample).")
c("C47","proved","C47_error_reported")
c("C48","proved","C48_notation C48_unambiguous C48_rejected C48_accepted C48_parseRule C48_addRule C48_eof_marks")
c("C49","proved","C49_line C49_no_line C49_first C49_duplicate","The fault (Spec/Calls.lean Fault) has the name of the rule and the reason; for a text that is no definition the reason is true of the text (Spec/Cause.lean).")
c("C50","partial","C50_evalRule_partial C50_document_partial C50_leaves_evalRule_partial C50_leaves_document_partial C50_embed_partial C50_leaves_embed_partial C50_range C50_group C50_leading_space","False in full: ranges, groups and character sequences that begin with white space carry another position or none, and C07.  Proved for regular evaluations, orderly documents and samples of EvalEmbed that are unambiguous throughout, with the position every kind of node really carries (Spec/Places.lean); the positions after simplification of the tree are in C26-C30.")
c("C51","partial","C51_choice_partial C51_concat_partial C51_repetition_partial C51_block_partial C51_terminal C51_eof C51_terminal_ok C51_passed C51_undefined C51_index C51_no_cause","False at the beginning of a text: alternatives that fail at index 0 do not count, and the error of the choice then has no cause (C51_no_cause).  Otherwise proved for regular evaluations; the bound on ErrIdx and the errors of terminals for all.")
c("C52","proved","C52_nodes C52_tokens C52_sticky C52_ast C52_unique")
c("C53","partial","C53_characters C53_leaf C53_block C53_sticky C53_between C53_first C53_last C53_ast C53_ast_counterexample","Proved for nodes.  False for an AST, whose Text puts nothing between its trees (C53_ast_counterexample); C53_ast says what it is.")
c("C54","proved","C54_tree C54_lines C54_header C54_leaf C54_ast C54_eval C54_evalRule C54_evalEmbed C54_result","C54_header is for names without '/' and a config that prints rule types; rune lists stand for the Go strings.")
c("C55","partial","C55_eval C55_text C55_rest C55_next_matters C55_evalRaw C55_evalAST C55_evalRule_partial C55_counterexample","Proved for rule.Eval, EvalRaw and Eval, in terms of the cursor.  That CharsRead of EvalRule tells how far it read is proved for regular evaluations; a block with ambiguous excludes loses characters and reports fewer (C55_counterexample).")
c("C56","proved","C56_accepted C56_evalRule C56_evalEmbed C56_roots C56_evalRaw C56_evalRaw_back C56_eval C56_tree C56_simplify")
c("C57","partial","C57_explained C57_explained_evalRule C57_message C57_message_reachable C57_text C57_shown C57_bounds_told C57_true_partial C57_true_evalRule_partial C57_nil C57_true_counterexample C57_space_counterexample","C57_shown, C57_bounds_told: the description of a rule contains those of all parts not hidden behind a name, and the bounds of a repetition can be read off it. That an error is true of the text: regular evaluations, positions up to the defect of C07, and not for literals of white space only; false otherwise (C57_true_counterexample, C57_space_counterexample). The error of a choice none of whose alternatives comes further than the beginning of the text says nothing (C57_nil).")
c("C58","proved","C58_clean C58_evalRule_returns C58_evalRule C58_gives_back C58_local C58_one_alternative C58_choice C58_embed C58_orderly C58_document C58_three_roots_counterexample","For these grammars the partial theorems on C12-C14, C18, C20-C25, C46, C50, C51, C55 and C57 hold without condition: C58_clean supplies the hypothesis Regular (or Clean), C58_orderly the hypothesis Orderly. Texts with white space above U+0020 (U+0085, U+00A0) are left out: a range can match them. The check is computable (Certificate.ok, certify) and is run in the kernel on a grammar of expressions and one of values. With three roots the part on documents is false: C58_three_roots_counterexample.")
c("C59","proved","C59_sound C59_complete C59_accepts C59_unambiguous C59_document C59_sound_partial","The language is Spec/Language.lean (Derives, Reads); the check is Sets.ok and Sets.rootsOk, computable, run in the kernel on the two grammars of C58. Blocks and terminals count as tokens: what they match is C16-C18 and C40. Without the check the claim is false: C59_counterexample ({ 'x' } 'x' on x). C59_sound_partial is soundness for any grammar, for regular evaluations.")
c("C60","proved","C60_rules C60_order C60_aligned C60_text C60_marks C60_read_back C60_lines C60_outline C60_detail","Root rules and reference map: grammars all of whose definitions were accepted; a rejected definition leaves wrong entries behind (C60_rejected_counterexample, the defect of C37). The line by line view (C60_lines, C60_outline, C60_detail) is for rules that print without a newline, see C60_newline_counterexample. The result view is C54_result.")
c("C61","partial","C61_agrees C61_no_match C61_ambiguity C61_no_match_text C61_ambiguity_text C61_text C61_true_partial C61_order_partial C61_alias_counterexample C61_position_counterexample","The forms of the text and the reasons of the root rules hold for all grammars and documents (C24_empty and C24_some_node for the other two errors). Where the errors come up, that they are true, and that the order of the maps does not matter: orderly documents, positions left out of the comparison. Root rules that are only other names for a rule are not named in an ambiguity (C61_alias_counterexample).")
c("C62","proved","C62_read C62_write C62_bytes C62_valid C62_grammar C62_addRule C62_lookup C62_eval C62_indent C62_bytes_counterexample","The functions of Go's packages strings and utf8 are modelled after their documentation and source (trusted). Bytes that are not well-formed do not come back (C62_bytes_counterexample).")
c("C63","partial","C63_parseRule C63_addRule C63_unheard_parseRule C63_unheard_addRule C63_unheard_text C63_undefined C63_undefined_any C63_line_text C63_shown_text C63_line_read C63_message C63_shown C63_first_char_partial C63_first_char_wrong C63_end_shown","All of it is proved except that a name starting with a character outside ASCII is shown with the wrong character (C63_first_char_wrong) and that the end of the text is shown as U+FFFD (C63_end_shown), so that C63_message leaves these messages out.")
c("C64","partial","C64_run C64_rules C64_file C64_file_error C64_tree C64_no_panic C64_ends C64_rules_need_file C64_undefined_used C64_stale_root C64_virtual_kept","All of it is proved except the last sentence, which is false: without a file the rules of the command line are never used (C64_rules_need_file), and a root rule of the file stays a root rule though a rule of the command line refers to it (C64_stale_root). A grammar with an undefined rule is reported and used nevertheless (C64_undefined_used), and virtual nodes are removed after Eval has joined them with others, so that their text can remain (C64_virtual_kept). Package flag and the help text are not modelled.")
c("C65", "proved", "C65_same_rules C65_later_calls C65_text C65_document C65_only_needed", "C65_case is a pair of texts that meets the hypotheses.")
c("C66", "proved", "C66_written C66_longest C66_whole C66_finite C66_chars C66_apart_needed C66_empty C66_newline", "C66_apart_needed shows that the condition on white space is needed, C66_empty that an empty sample is read by no rule of this kind, C66_newline that a newline has to be written as an escape.")
c("C67", "partial", "C67_parentheses_partial C67_predictive_partial C67_text C67_named C67_option_counterexample C67_regroup_counterexample C67_ambiguous_counterexample", "Partial because the code is wrong: the counterexamples show parentheses that do change what is matched. The positive part covers parentheses around any part that is not an option (nor a reference to one), at any depth, in regular evaluations.")
c("C68", "proved", "C68_rule C68_embed C68_raw C68_text", "For EvalRaw the two grammars must have the same root rules, none of them introduced or removed. Longer chains of references follow by applying the theorem again.")
c("C69", "proved", "C69_text C69_lines C69_eval C69_document C69_order C69_lines_differ", "SameReason says how the reasons may differ: the line given for a duplicate, and white space around a quoted text without =. With Validate called in between, roots can be stale (C32_stale_root).")
c("C70", "proved", "C70_accepted C70_rule C70_embed C70_roots C70_raw C70_tree C70_simplify C70_eval C70_levels_needed", "For EvalRaw and Eval the same up to the order in which maps are visited, as everywhere. C70_levels_needed shows that the conditions on the level are needed.")
c("C71", "partial", "C71_token_partial C71_ignored C71_counterexample", "False: the merging code ignores the mark (the code that looked at it is commented out). C71_ignored: $ has no effect at all on the shape of the trees, at any level. C71_token_partial: a node that is not sticky is kept, token or not.")
c("C72", "partial", "C72_rule_partial C72_rule_exact_partial C72_document_partial C72_document_exact_partial C72_predictive C72_predictive_exact C72_predictive_document C72_predictive_document_exact C72_counterexample C72_leading_counterexample C72_kind_counterexample", "False in general: with look-ahead that is lost, the number of spaces decides which alternative is taken (C72_counterexample), and a range takes skipped white space for its match if it is beyond its end (C72_kind_counterexample). Proved for regular evaluations and orderly documents, and without these conditions for predictive grammars (C58) on texts whose white space is ASCII.")
c("C73", "proved", "C73_stream C73_rule C73_embed C73_raw C73_eval C73_rule_untouched C73_embed_untouched C73_raw_untouched C73_eval_untouched C73_rule_own C73_embed_own C73_eval_own C73_merge C73_simplify C73_two C73_text", "Arrays of runes and stream objects are in memory; nodes, lists of nodes and rules are values here too (see DESIGN.md).")
c("C74", "proved", "C74_alone C74_no_race C74_no_wait C74_end", "Jobs are assumed to end when run alone (fuel suffices); they never panic (C19). Rules and grammars are only read by evaluation, so they are values here; the model of memory is that of C73, one access at a time. The example with two goroutines merging the same tree shows a race.")
c("C75", "partial", "C75_linear C75_bound_partial C75_tight C75_exponential_counterexample C75_fuel C75_calls_det", "False in general: a grammar of two rules needs 2^n calls on n characters. The linear bound is proved for predictive grammars (C58) and texts in which the white space is that of ASCII; for other grammars without left recursion the bound is K^(n+1) (C75_bound_partial: evaluations must be regular), and it cannot be better than exponential (C75_tight). Counted are the calls of IRule.Eval made by EvalRule, not the characters compared or copied.")
c("C76", "partial", "C76_document C76_order C76_embed_quadratic C76_embed_bound_partial C76_document_bound_partial C76_embed_counterexample C76_raw_fuel C76_raw_det C76_embed_fuel C76_embed_det", "Proved for predictive grammars (C58; documents: at most two roots, told apart by one character) and texts in which the white space is that of ASCII; the independence of the order for all Orderly documents. For other grammars no polynomial bound holds (C75). EvalEmbed is quadratic, with a matching lower bound. Without the check, but without left recursion, the number of calls for a document or a search is at most exponential (C76_embed_bound_partial, C76_document_bound_partial).")
c("C77", "partial", "C77_rule_partial C77_predictive C77_document_partial C77_simplify C77_eval_partial C77_embed_partial C77_counterexample", "No condition on the grammar; the evaluation must lose no characters (Regular, Orderly, Clean), which C58 guarantees for predictive grammars (C77_predictive). Without that the claim is false: C77_counterexample gives a rule whose tree grows with the square of the text and stands for more characters than the text has.")
c("C78", "partial", "C78_rule C78_entire C78_text C78_document C78_exact C78_levels C78_counterexample C78_text_counterexample", "EvalRule, EvalRaw and the text of a tree. If both texts end in white space or neither does, stickiness is the same too and the claim holds for Eval at every level (C78_exact, C78_levels). Without that condition the part about Eval is false: with a space at the end of the text an empty repetition before it is not sticky, and what is merged without the space is not merged with it (C78_counterexample). The text of a tree is not always accepted (C78_text_counterexample).")
c("C79", "proved", "C79_rule C79_rule_text C79_two C79_document C79_document_text C79_levels C79_ends pieces_spells C79_exact C79_document_exact C79_levels_exact counting_answers", "Both directions. If cursors and positions are those of the library's own stream, everything is the same, positions and errors included (C79_exact). Where the outcome depends on the order in which maps are visited, each order over the one stream has an order over the other with the same outcome. Methods that panic or do not return, and other users of the stream between two calls, are outside the model.")
c("C80", "proved", "C80_rule C80_document C80_levels", "No hypothesis on the implementation; its methods are total functions in the model. That the evaluation ends is not claimed: a stream without an end need not let it.")
c("C81", "partial", "C81_first C81_whole_partial C81_counterexample C81_embed C81_simplified_partial C81_simplified_counterexample", "C81_first and C81_embed hold without a condition on the rules. One tree exactly if the whole text is used: for regular evaluations; a block with an escape counts more characters used than there are. Eval against EvalRule with the simplifications: for trees that are not sticky and not marked as no data; for sticky ones the results differ.")
c("C82", "partial", "C82_same_trees C82_together_partial C82_many_partial C82_counterexample C82_end_counterexample", "C82_same_trees: if the whole is accepted, its trees are those of the parts (also for a text with other white space between the parts). It is accepted if the last tree of each part but the last is not sticky. If it is sticky the claim is false: the next document is read without skipping white space (C82_counterexample: x and 'y y;' are documents, 'xy y;' is none).")
c("C83","proved","C83_text C83_node C83_virtual C83_nonData C83_merge C83_redundant C83_simplify C83_forest C83_apart C83_layout C83_shared_counterexample C83_cycle_counterexample","The methods once more over a memory of node objects, with separation: the footprint of a forest, what is written, what is not. C83_layout shows that every list of trees can be in memory. That EvalRaw makes every node once and links it into one parent is read off the source, not proved.")
c("C84","proved","C84_rule C84_embed C84_raw C84_eval C84_fair C84_kept C84_two C84_then_simplify","The evaluators once more, over a memory of node objects (Model/NodeEval.lean), proved to agree with the evaluators on values: both end the same way, and the trees are a forest of new nodes while everything below the old allocation mark is unchanged. In the model a node with children is written once, when its children are known; the code writes some fields earlier, while nobody else has its address. The matched results of the roots are permuted by index, so that the same order can be given to both evaluators (C84_fair: all orders are covered).")
c("C85","partial","C85_rule_partial C85_predictive C85_embed_partial C85_document_partial C85_counterexample C85_groups_counterexample","Proved for every sample and document whose evaluation is regular (orderly) with both grammars, hence for all texts if both grammars are predictive (C58). False in full: C85_counterexample, r = 'a' | 'a' | 'ab' has no tree on ab, r = 'ab' | 'a' | 'a' has one.")
c("C86","partial","C86_choice_partial C86_quiet_partial C86_rule_partial C86_predictive_partial C86_embed_partial C86_document_partial C86_absent C86_absent_string C86_lower C86_counterexample","C86_lower (groups of lower priority) holds without any condition. C86_choice_partial: one choice at one place; the new choice is not assumed to be regular. C86_rule_partial, C86_embed_partial, C86_document_partial: whole grammars, with alternatives of choices and excluded texts of blocks added at any depth, further rules and roots, on texts that both evaluate regularly; every text if both grammars are predictive (C86_predictive_partial). All that is new must match nowhere in the text, and the new alternatives must not report that white space may follow (excluded texts and roots may); C86_absent and C86_absent_string give conditions that can be read off the text. Without the last condition the claim is false: a string in double quotes that does not match still makes the choice report that white space may follow, so a text is accepted that was not, and another rejected that was accepted (C86_counterexample).")
c("C87","partial","C87_lower C87_lower_fails C87_upper C87_first C87_option C87_counterexample C87_option_counterexample","Proved on every stream, without conditions on the rule or the text, except that an upper bound which the matches just reach changes nothing for the rules around: that is false, because the loop then does not look for another match, and a failed match can report that white space may follow (C87_counterexample). The matches themselves are the same also then (C87_first). That {x}<0,1> is like [x] holds of the rule itself before the end of the text (C87_option), but not of the rules around it (C87_option_counterexample).")
json.dump({"claims":claims},open("/verif/MANIFEST.json","w"),indent=1)
