"""Writes MANIFEST.json from the table below."""
import json
M=[]
def m(id,status,theorems,note=""): M.append(dict(property=id,status=status,theorems=["CE."+t for t in theorems.split()],note=note))
m("C01","proved","C01_lossless")
m("C02","proved","C02_spans_located")
m("C03","proved","C03_ids")
m("C04","proved","C04_readme_accepted")
m("C05","proved","C05_accepts_iff_relaxed C05_strict")
m("C06","proved","C06_print_then_parse C06_parse_then_print C06_unambiguous C06_reparse")
m("C07","proved","C07_parse_total C07_expression_all_or_nothing")
m("C08","proved","C08_no_panic C08_parse_no_panic","Integer overflow of usize is the subject of C58, recursion depth that of C40; a stack overflow itself is outside the model.")
m("C09","proved","C09_wellFormed C09_escd_occurrence")
m("C10","proved","C10_adjacency")
m("C11","proved","C11_alternations")
m("C12","proved","C12_error_spans")
m("C13","proved","C13_optional")
m("C14","proved","C14_parameter")
m("C15","proved","C15_alternation_failure C15_empty C15_onlyOptional C15_ok")
m("C16","partial","C16_trailing_backslash_partial C16_actual C16_false C16_iff","The full claim is false of the code (C16_false); C16_iff says exactly when it holds.")
m("C17","proved","C17_alternative C17_escaped_nonreserved C17_after_accepted")
m("C18","proved","C18_parameter_indexer C18_single_indexer")
m("C19","proved","C19_recoverability")
m("C20","proved","C20_optional C20_parameter C20_alternative C20_alternation C20_single C20_expression")
m("C21","proved","C21_compose")
m("C22","proved","C22_literal C22_escape_yields")
m("C23","proved","C23_language C27_captures","The regex engine is modelled on the generated fragment by its declarative semantics.")
m("C24","proved","C24_valid C24_never_invalid")
m("C25","proved","C25_first_unknown C25_located C25_with_parameters","Regex::new errors of the final pattern are not counted as expansion errors; regex_syntax is an arbitrary function.")
m("C26","proved","C26_groups")
m("C27","proved","C27_captures C27_located")
m("C28","proved","C28_names_unique C28_names_injective C26_groups")
m("C29","proved","C29_whole C42_pattern")
m("C30","proved","C30_fallback C30_local C30_precedence")
m("C31","proved","C31_lookup C31_order C31_expansion")
m("C32","partial","C32_renamed_partial C32_unrepeated_partial C32_regular_partial C32_false","False of the code for groups inside repetitions (C32_false). Proved: exactly what renaming does to every HIR of the fragment (C32_renamed_partial), the full claim for HIRs without groups inside repetitions, and both from the text of the regex on, through the modelled parser and translator of regex_syntax (C32_regular_partial).")
m("C34","proved","C34_parenthesised")
m("C35","proved","C35_raw C35_lookup C35_escaped")
m("C36","partial","C36_parens_partial C36_arrangement_partial C36_single_partial C36_brace C36_brace_partial C36_false C36_completed_false","False of the code (C36_false, C36_completed_false). Proved for regexes with an opening parenthesis, for regexes of complete tokens whatever follows, for regexes with a brace that begins no count whatever follows, and for a single invalid regex (unfinished or not) among sound parameters of which those to the right leave no bracket unescaped. Missing: invalid regexes that begin with ? or end with a backslash after a closing parenthesis, and several invalid regexes (all false of the code in general).")
m("C45","partial","C45_language C45_plain C45_understood C45_regular_partial C45_false C45_groups_false","False of the code where `?` follows a repetition beside a group (C45_false) and for groups that are repeated zero times or match only the empty text (C45_groups_false). Proved for every understanding of the regex by regex_syntax that is right (C45_language, hypothesis Understood), and, with the modelled parser and translator of regex_syntax, for all valid regexes without a capture group and all regular regexes, that is all without these three (C45_regular_partial).")
m("C33","proved","C33_expressible")
m("C37","proved","C37_skipLast")
m("C38","proved","C38_ownedChars C38_ownedChars_yields")
m("C39","proved","C39_builtin")
m("C40","proved","C40_depth_sufficient C40_depth_necessary","Depth counts nested calls of the recursive look-ahead; C40_depth_necessary refutes any constant bound.")
m("C41","proved","C41_escaped0_takeWhile C41_escaped0_takeWhile1 C41_takeWhile_eq_takeWhile1")
m("C42","proved","C42_pattern C23_language")
m("C43","proved","C43_parse_err_iff C43_dichotomy")
m("C44","proved","C44_spans_ordered")
m("C46","proved","C46_compiled C46_compiled_order C46_returned C46_order C46_same_order C46_same C46_tree_differs","The leftmost-first search of the regex crate is modelled, on the HIR which the pattern is translated into (Model/HirSearch: C46_compiled) and on the syntax tree (Model/RegexSearch: C46_returned). The two agree unless all branches of an alternation begin with an optional (C46_same, C46_tree_differs), since regex_syntax moves common prefixes out of alternations. No digit class may contain `+-.eEiN` (hypothesis SaneDigits).")
m("C47","partial","C47_longest_partial C47_false C47_compiled_partial C47_compiled_false","False of the code for float (C47_false, C47_compiled_false); proved for the other built-in parameters.")
m("C48","proved","C48_message C48_unambiguous C48_advice C48_advice_generic C48_stage C48_parameter")
m("C49","proved","C49_step C49_progress C49_any_order C49_repairable C49_stuck")
m("C50","proved","C50_accepted C50_concat C50_concat_custom C50_touching C50_anchors","Custom parameters are looked up by name and understood by regex_syntax as by regex.")
m("C51","proved","C51_optional C51_optional_custom C51_in_branch C51_in_branch_custom","Custom parameters as for C50.")
m("C52","proved","C52_alternation C52_alternation_custom C52_order C52_order_custom","Custom parameters as for C50.")
m("C53","proved","C53_same_pattern C53_escapes_matter C53_differ_in_escapes","Built-in parameters.")
m("C54","proved","C54_builtin C54_within_limit C54_custom C54_custom_within_limit C54_custom_iff C54_levels C54_classes C54_brackets C54_printed C54_printed_iff C54_regular C54_renamed_deeper C54_no_constant C54_beyond","Depth is measured on the modelled syntax tree of the pattern; the limit of regex_syntax is modelled in Model/Nest.")
m("C55","proved","C55_total C55_valid C55_language C55_unknown","ASTs of spans.")
m("C56","partial","C56_documented_failures_partial C56_false","False of the code for parameter (C56_false); proved for the five other parsers, and for parameter with EscapedEndOfLine added to its list.")
m("C57","partial","C57_attribution_partial C57_names_partial C57_builtin C57_false","False of the code for custom regexes with a group inside a repetition (C57_false). Proved for built-in parameters without exception and for regular custom regexes (as in C45) without groups inside repetitions.")
m("C58","proved","C58_no_overflow C58_64bit C58_32bit C58_sharp C58_truncated C58_parsers C58_parameter_count","Model/Machine repeats the parser with checked arithmetic; overflow checks are those of a debug build (a release build wraps).")
m("C59","proved","C59_work C59_linear C59_quadratic C59_quadratic_reached","Work as metered in Model/Machine (bytes looked at, iterations, alternatives tried); allocation is not counted.")
m("C60","proved","C60_iterators C60_lists C60_trace C60_lookups C60_stateless C60_log","Model/Adapters builds the iterators from models of the std adapters; collect is repeated next (std overrides try_fold with the same order of effects).")
m("C61","proved","C61_scanner C61_automaton C61_regular C61_minimal","")
m("C62","proved","C62_completable C62_three_characters C62_prefix C62_hopeless C62_unfinished_parameter C62_exact C62_inexact","C62_inexact: with alternations an error may suggest that the text can be completed although it cannot, `(a)/(b`.")
m("C63","proved","C63_generic C63_spanned C63_str C63_str_ok C63_extra","")
m("C64","proved","C64_int_printed C64_int_read_back C64_signed_read_back C64_int_readable C64_int_missing C64_int_plus C64_int_unicode C64_float_printed C64_float_readable C64_unquoted C64_string","Display and FromStr of std are specified from its documentation (Spec/Values).")
m("C65","proved","C65_unique C65_returned C65_int_end C65_float_end C65_word_end C65_spaced C65_ambiguous","C65_ambiguous: with nothing between the parameters it is false.")
m("C66","proved","C66_single","")
m("C67","proved","C67_optional C67_parameter C67_alternative C67_alternation C67_single C67_unbounded","")
m("C68","proved","C68_shortest C68_empty C68_finite C68_infinite","")
m("C69","proved","C69_types C69_replace","C69_types is about the languages of C39; C69_replace about the generated regexes.")
m("C70","proved","C70_pattern C70_ids C70_same C70_quadratic","The count for OwnedChars is of characters gone past by Chars::nth; std skips in chunks of bytes, which is a constant factor.")
m("C71","proved","C71_nested C71_inline C71_anchors","")
m("C72","proved","C72_order C72_asymm C72_reprinted C72_false","Search on the HIR as for C46 (same hypothesis on digit classes); custom regexes within the modelled fragment.")
m("C73","proved","C73_search C73_compiled C73_regex C73_split","For all regexes of the modelled fragment. The engine is modelled as leftmost-first backtracking on the HIR (Model/HirSearch); its automata are not.")
m("C74","proved","C74_pieces C74_whole C74_accepted C74_false","For all valid regexes of the modelled fragment, not only regular ones.")
m("C75","proved","C75_flags","Which characters differ in case only is a parameter of the model (the table of simple case folding in regex_syntax).")
m("C76","proved","C76_pieces C76_spaces","The size limit of compiled regexes is outside the model, so large counts may be refused in reality. Which characters are digits, spaces, word characters, of a general category, or differ in case only is a parameter.")
m("C77","proved","C77_groups C77_illegal C77_lookaround","Groups one inside the other and repeated groups are the subject of C57. Names with characters outside ASCII are not modelled.")
m("C78","proved","C78_extends C78_invalid C78_valid C78_refused C78_closed","The refusal is finding 18. White space inside of tokens is outside the fragment (`unsupported`).")
m("C79","proved","C79_arguments C79_unique C79_determined C79_width C79_literal C79_string","Regular regexes as in C45 (all regexes without groups are).")
m("C80","proved","C80_wider C80_equivalent C80_never","Regular regexes as in C45 (all regexes without groups are).")
m("C81","proved","C81_says C81_means C81_grouped C81_closed C81_plain C81_refused","Parts that contain white space or `#` themselves are left out unless after a backslash; so are inline flags.")
m("C82","proved","C82_texts C82_shortest C82_least C82_some","An example shows that the condition on look-arounds is needed (`a$`).")
m("C83","proved","C83_disjoint C83_literal C83_listed","Sufficient for expressions with parameters, exact where one of the two is literal or neither has parameters.")
m("C84","proved","C84_exclusive C84_one C84_collide C84_builtin C84_types","Assumes of the character tables that on ASCII `\\d` is `0` to `9`, and that `1` and `\"` are no white space.")
m("C85","proved","C85_longest C85_most C85_bounded C85_builtin","`C85_builtin` assumes of the character tables that `0` is a digit and no white space.")
M.sort(key=lambda x:x["property"])
json.dump({"claims":M},open("/verif/MANIFEST.json","w"),indent=1)
