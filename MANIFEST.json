{
 "claims": [
  {
   "property": "C01",
   "status": "proved",
   "theorems": [
    "CE.C01_lossless"
   ],
   "note": ""
  },
  {
   "property": "C02",
   "status": "proved",
   "theorems": [
    "CE.C02_spans_located"
   ],
   "note": ""
  },
  {
   "property": "C03",
   "status": "proved",
   "theorems": [
    "CE.C03_ids"
   ],
   "note": ""
  },
  {
   "property": "C04",
   "status": "proved",
   "theorems": [
    "CE.C04_readme_accepted"
   ],
   "note": ""
  },
  {
   "property": "C05",
   "status": "proved",
   "theorems": [
    "CE.C05_accepts_iff_relaxed",
    "CE.C05_strict"
   ],
   "note": ""
  },
  {
   "property": "C06",
   "status": "proved",
   "theorems": [
    "CE.C06_print_then_parse",
    "CE.C06_parse_then_print",
    "CE.C06_unambiguous",
    "CE.C06_reparse"
   ],
   "note": ""
  },
  {
   "property": "C07",
   "status": "proved",
   "theorems": [
    "CE.C07_parse_total",
    "CE.C07_expression_all_or_nothing"
   ],
   "note": ""
  },
  {
   "property": "C08",
   "status": "proved",
   "theorems": [
    "CE.C08_no_panic",
    "CE.C08_parse_no_panic"
   ],
   "note": "Integer overflow of usize is the subject of C58, recursion depth that of C40; a stack overflow itself is outside the model."
  },
  {
   "property": "C09",
   "status": "proved",
   "theorems": [
    "CE.C09_wellFormed",
    "CE.C09_escd_occurrence"
   ],
   "note": ""
  },
  {
   "property": "C10",
   "status": "proved",
   "theorems": [
    "CE.C10_adjacency"
   ],
   "note": ""
  },
  {
   "property": "C11",
   "status": "proved",
   "theorems": [
    "CE.C11_alternations"
   ],
   "note": ""
  },
  {
   "property": "C12",
   "status": "proved",
   "theorems": [
    "CE.C12_error_spans"
   ],
   "note": ""
  },
  {
   "property": "C13",
   "status": "proved",
   "theorems": [
    "CE.C13_optional"
   ],
   "note": ""
  },
  {
   "property": "C14",
   "status": "proved",
   "theorems": [
    "CE.C14_parameter"
   ],
   "note": ""
  },
  {
   "property": "C15",
   "status": "proved",
   "theorems": [
    "CE.C15_alternation_failure",
    "CE.C15_empty",
    "CE.C15_onlyOptional",
    "CE.C15_ok"
   ],
   "note": ""
  },
  {
   "property": "C16",
   "status": "partial",
   "theorems": [
    "CE.C16_trailing_backslash_partial",
    "CE.C16_actual",
    "CE.C16_false",
    "CE.C16_iff"
   ],
   "note": "The full claim is false of the code (C16_false); C16_iff says exactly when it holds."
  },
  {
   "property": "C17",
   "status": "proved",
   "theorems": [
    "CE.C17_alternative",
    "CE.C17_escaped_nonreserved",
    "CE.C17_after_accepted"
   ],
   "note": ""
  },
  {
   "property": "C18",
   "status": "proved",
   "theorems": [
    "CE.C18_parameter_indexer",
    "CE.C18_single_indexer"
   ],
   "note": ""
  },
  {
   "property": "C19",
   "status": "proved",
   "theorems": [
    "CE.C19_recoverability"
   ],
   "note": ""
  },
  {
   "property": "C20",
   "status": "proved",
   "theorems": [
    "CE.C20_optional",
    "CE.C20_parameter",
    "CE.C20_alternative",
    "CE.C20_alternation",
    "CE.C20_single",
    "CE.C20_expression"
   ],
   "note": ""
  },
  {
   "property": "C21",
   "status": "proved",
   "theorems": [
    "CE.C21_compose"
   ],
   "note": ""
  },
  {
   "property": "C22",
   "status": "proved",
   "theorems": [
    "CE.C22_literal",
    "CE.C22_escape_yields"
   ],
   "note": ""
  },
  {
   "property": "C23",
   "status": "proved",
   "theorems": [
    "CE.C23_language",
    "CE.C27_captures"
   ],
   "note": "The regex engine is modelled on the generated fragment by its declarative semantics."
  },
  {
   "property": "C24",
   "status": "proved",
   "theorems": [
    "CE.C24_valid",
    "CE.C24_never_invalid"
   ],
   "note": ""
  },
  {
   "property": "C25",
   "status": "proved",
   "theorems": [
    "CE.C25_first_unknown",
    "CE.C25_located",
    "CE.C25_with_parameters"
   ],
   "note": "Regex::new errors of the final pattern are not counted as expansion errors; regex_syntax is an arbitrary function."
  },
  {
   "property": "C26",
   "status": "proved",
   "theorems": [
    "CE.C26_groups"
   ],
   "note": ""
  },
  {
   "property": "C27",
   "status": "proved",
   "theorems": [
    "CE.C27_captures",
    "CE.C27_located"
   ],
   "note": ""
  },
  {
   "property": "C28",
   "status": "proved",
   "theorems": [
    "CE.C28_names_unique",
    "CE.C28_names_injective",
    "CE.C26_groups"
   ],
   "note": ""
  },
  {
   "property": "C29",
   "status": "proved",
   "theorems": [
    "CE.C29_whole",
    "CE.C42_pattern"
   ],
   "note": ""
  },
  {
   "property": "C30",
   "status": "proved",
   "theorems": [
    "CE.C30_fallback",
    "CE.C30_local",
    "CE.C30_precedence"
   ],
   "note": ""
  },
  {
   "property": "C31",
   "status": "proved",
   "theorems": [
    "CE.C31_lookup",
    "CE.C31_order",
    "CE.C31_expansion"
   ],
   "note": ""
  },
  {
   "property": "C32",
   "status": "partial",
   "theorems": [
    "CE.C32_renamed_partial",
    "CE.C32_unrepeated_partial",
    "CE.C32_regular_partial",
    "CE.C32_false"
   ],
   "note": "False of the code for groups inside repetitions (C32_false). Proved: exactly what renaming does to every HIR of the fragment (C32_renamed_partial), the full claim for HIRs without groups inside repetitions, and both from the text of the regex on, through the modelled parser and translator of regex_syntax (C32_regular_partial)."
  },
  {
   "property": "C33",
   "status": "proved",
   "theorems": [
    "CE.C33_expressible"
   ],
   "note": ""
  },
  {
   "property": "C34",
   "status": "proved",
   "theorems": [
    "CE.C34_parenthesised"
   ],
   "note": ""
  },
  {
   "property": "C35",
   "status": "proved",
   "theorems": [
    "CE.C35_raw",
    "CE.C35_lookup",
    "CE.C35_escaped"
   ],
   "note": ""
  },
  {
   "property": "C36",
   "status": "partial",
   "theorems": [
    "CE.C36_parens_partial",
    "CE.C36_arrangement_partial",
    "CE.C36_single_partial",
    "CE.C36_brace",
    "CE.C36_brace_partial",
    "CE.C36_false",
    "CE.C36_completed_false"
   ],
   "note": "False of the code (C36_false, C36_completed_false). Proved for regexes with an opening parenthesis, for regexes of complete tokens whatever follows, for regexes with a brace that begins no count whatever follows, and for a single invalid regex (unfinished or not) among sound parameters of which those to the right leave no bracket unescaped. Missing: invalid regexes that begin with ? or end with a backslash after a closing parenthesis, and several invalid regexes (all false of the code in general)."
  },
  {
   "property": "C37",
   "status": "proved",
   "theorems": [
    "CE.C37_skipLast"
   ],
   "note": ""
  },
  {
   "property": "C38",
   "status": "proved",
   "theorems": [
    "CE.C38_ownedChars",
    "CE.C38_ownedChars_yields"
   ],
   "note": ""
  },
  {
   "property": "C39",
   "status": "proved",
   "theorems": [
    "CE.C39_builtin"
   ],
   "note": ""
  },
  {
   "property": "C40",
   "status": "proved",
   "theorems": [
    "CE.C40_depth_sufficient",
    "CE.C40_depth_necessary"
   ],
   "note": "Depth counts nested calls of the recursive look-ahead; C40_depth_necessary refutes any constant bound."
  },
  {
   "property": "C41",
   "status": "proved",
   "theorems": [
    "CE.C41_escaped0_takeWhile",
    "CE.C41_escaped0_takeWhile1",
    "CE.C41_takeWhile_eq_takeWhile1"
   ],
   "note": ""
  },
  {
   "property": "C42",
   "status": "proved",
   "theorems": [
    "CE.C42_pattern",
    "CE.C23_language"
   ],
   "note": ""
  },
  {
   "property": "C43",
   "status": "proved",
   "theorems": [
    "CE.C43_parse_err_iff",
    "CE.C43_dichotomy"
   ],
   "note": ""
  },
  {
   "property": "C44",
   "status": "proved",
   "theorems": [
    "CE.C44_spans_ordered"
   ],
   "note": ""
  },
  {
   "property": "C45",
   "status": "partial",
   "theorems": [
    "CE.C45_language",
    "CE.C45_plain",
    "CE.C45_understood",
    "CE.C45_regular_partial",
    "CE.C45_false",
    "CE.C45_groups_false"
   ],
   "note": "False of the code where `?` follows a repetition beside a group (C45_false) and for groups that are repeated zero times or match only the empty text (C45_groups_false). Proved for every understanding of the regex by regex_syntax that is right (C45_language, hypothesis Understood), and, with the modelled parser and translator of regex_syntax, for all valid regexes without a capture group and all regular regexes, that is all without these three (C45_regular_partial)."
  },
  {
   "property": "C46",
   "status": "proved",
   "theorems": [
    "CE.C46_compiled",
    "CE.C46_compiled_order",
    "CE.C46_returned",
    "CE.C46_order",
    "CE.C46_same_order",
    "CE.C46_same",
    "CE.C46_tree_differs"
   ],
   "note": "The leftmost-first search of the regex crate is modelled, on the HIR which the pattern is translated into (Model/HirSearch: C46_compiled) and on the syntax tree (Model/RegexSearch: C46_returned). The two agree unless all branches of an alternation begin with an optional (C46_same, C46_tree_differs), since regex_syntax moves common prefixes out of alternations. No digit class may contain `+-.eEiN` (hypothesis SaneDigits)."
  },
  {
   "property": "C47",
   "status": "partial",
   "theorems": [
    "CE.C47_longest_partial",
    "CE.C47_false",
    "CE.C47_compiled_partial",
    "CE.C47_compiled_false"
   ],
   "note": "False of the code for float (C47_false, C47_compiled_false); proved for the other built-in parameters."
  },
  {
   "property": "C48",
   "status": "proved",
   "theorems": [
    "CE.C48_message",
    "CE.C48_unambiguous",
    "CE.C48_advice",
    "CE.C48_advice_generic",
    "CE.C48_stage",
    "CE.C48_parameter"
   ],
   "note": ""
  },
  {
   "property": "C49",
   "status": "proved",
   "theorems": [
    "CE.C49_step",
    "CE.C49_progress",
    "CE.C49_any_order",
    "CE.C49_repairable",
    "CE.C49_stuck"
   ],
   "note": ""
  },
  {
   "property": "C50",
   "status": "proved",
   "theorems": [
    "CE.C50_accepted",
    "CE.C50_concat",
    "CE.C50_concat_custom",
    "CE.C50_touching",
    "CE.C50_anchors"
   ],
   "note": "Custom parameters are looked up by name and understood by regex_syntax as by regex."
  },
  {
   "property": "C51",
   "status": "proved",
   "theorems": [
    "CE.C51_optional",
    "CE.C51_optional_custom",
    "CE.C51_in_branch",
    "CE.C51_in_branch_custom"
   ],
   "note": "Custom parameters as for C50."
  },
  {
   "property": "C52",
   "status": "proved",
   "theorems": [
    "CE.C52_alternation",
    "CE.C52_alternation_custom",
    "CE.C52_order",
    "CE.C52_order_custom"
   ],
   "note": "Custom parameters as for C50."
  },
  {
   "property": "C53",
   "status": "proved",
   "theorems": [
    "CE.C53_same_pattern",
    "CE.C53_escapes_matter",
    "CE.C53_differ_in_escapes"
   ],
   "note": "Built-in parameters."
  },
  {
   "property": "C54",
   "status": "proved",
   "theorems": [
    "CE.C54_builtin",
    "CE.C54_within_limit",
    "CE.C54_custom",
    "CE.C54_custom_within_limit",
    "CE.C54_custom_iff",
    "CE.C54_levels",
    "CE.C54_classes",
    "CE.C54_brackets",
    "CE.C54_printed",
    "CE.C54_printed_iff",
    "CE.C54_regular",
    "CE.C54_renamed_deeper",
    "CE.C54_no_constant",
    "CE.C54_beyond"
   ],
   "note": "Depth is measured on the modelled syntax tree of the pattern; the limit of regex_syntax is modelled in Model/Nest."
  },
  {
   "property": "C55",
   "status": "proved",
   "theorems": [
    "CE.C55_total",
    "CE.C55_valid",
    "CE.C55_language",
    "CE.C55_unknown"
   ],
   "note": "ASTs of spans."
  },
  {
   "property": "C56",
   "status": "partial",
   "theorems": [
    "CE.C56_documented_failures_partial",
    "CE.C56_false"
   ],
   "note": "False of the code for parameter (C56_false); proved for the five other parsers, and for parameter with EscapedEndOfLine added to its list."
  },
  {
   "property": "C57",
   "status": "partial",
   "theorems": [
    "CE.C57_attribution_partial",
    "CE.C57_names_partial",
    "CE.C57_builtin",
    "CE.C57_false"
   ],
   "note": "False of the code for custom regexes with a group inside a repetition (C57_false). Proved for built-in parameters without exception and for regular custom regexes (as in C45) without groups inside repetitions."
  },
  {
   "property": "C58",
   "status": "proved",
   "theorems": [
    "CE.C58_no_overflow",
    "CE.C58_64bit",
    "CE.C58_32bit",
    "CE.C58_sharp",
    "CE.C58_truncated",
    "CE.C58_parsers",
    "CE.C58_parameter_count"
   ],
   "note": "Model/Machine repeats the parser with checked arithmetic; overflow checks are those of a debug build (a release build wraps)."
  },
  {
   "property": "C59",
   "status": "proved",
   "theorems": [
    "CE.C59_work",
    "CE.C59_linear",
    "CE.C59_quadratic",
    "CE.C59_quadratic_reached"
   ],
   "note": "Work as metered in Model/Machine (bytes looked at, iterations, alternatives tried); allocation is not counted."
  },
  {
   "property": "C60",
   "status": "proved",
   "theorems": [
    "CE.C60_iterators",
    "CE.C60_lists",
    "CE.C60_trace",
    "CE.C60_lookups",
    "CE.C60_stateless",
    "CE.C60_log"
   ],
   "note": "Model/Adapters builds the iterators from models of the std adapters; collect is repeated next (std overrides try_fold with the same order of effects)."
  },
  {
   "property": "C61",
   "status": "proved",
   "theorems": [
    "CE.C61_scanner",
    "CE.C61_automaton",
    "CE.C61_regular",
    "CE.C61_minimal"
   ],
   "note": ""
  },
  {
   "property": "C62",
   "status": "proved",
   "theorems": [
    "CE.C62_completable",
    "CE.C62_three_characters",
    "CE.C62_prefix",
    "CE.C62_hopeless",
    "CE.C62_unfinished_parameter",
    "CE.C62_exact",
    "CE.C62_inexact"
   ],
   "note": "C62_inexact: with alternations an error may suggest that the text can be completed although it cannot, `(a)/(b`."
  },
  {
   "property": "C63",
   "status": "proved",
   "theorems": [
    "CE.C63_generic",
    "CE.C63_spanned",
    "CE.C63_str",
    "CE.C63_str_ok",
    "CE.C63_extra"
   ],
   "note": ""
  },
  {
   "property": "C64",
   "status": "proved",
   "theorems": [
    "CE.C64_int_printed",
    "CE.C64_int_read_back",
    "CE.C64_signed_read_back",
    "CE.C64_int_readable",
    "CE.C64_int_missing",
    "CE.C64_int_plus",
    "CE.C64_int_unicode",
    "CE.C64_float_printed",
    "CE.C64_float_readable",
    "CE.C64_unquoted",
    "CE.C64_string"
   ],
   "note": "Display and FromStr of std are specified from its documentation (Spec/Values)."
  },
  {
   "property": "C65",
   "status": "proved",
   "theorems": [
    "CE.C65_unique",
    "CE.C65_returned",
    "CE.C65_int_end",
    "CE.C65_float_end",
    "CE.C65_word_end",
    "CE.C65_spaced",
    "CE.C65_ambiguous"
   ],
   "note": "C65_ambiguous: with nothing between the parameters it is false."
  },
  {
   "property": "C66",
   "status": "proved",
   "theorems": [
    "CE.C66_single"
   ],
   "note": ""
  },
  {
   "property": "C67",
   "status": "proved",
   "theorems": [
    "CE.C67_optional",
    "CE.C67_parameter",
    "CE.C67_alternative",
    "CE.C67_alternation",
    "CE.C67_single",
    "CE.C67_unbounded"
   ],
   "note": ""
  },
  {
   "property": "C68",
   "status": "proved",
   "theorems": [
    "CE.C68_shortest",
    "CE.C68_empty",
    "CE.C68_finite",
    "CE.C68_infinite"
   ],
   "note": ""
  },
  {
   "property": "C69",
   "status": "proved",
   "theorems": [
    "CE.C69_types",
    "CE.C69_replace"
   ],
   "note": "C69_types is about the languages of C39; C69_replace about the generated regexes."
  },
  {
   "property": "C70",
   "status": "proved",
   "theorems": [
    "CE.C70_pattern",
    "CE.C70_ids",
    "CE.C70_same",
    "CE.C70_quadratic"
   ],
   "note": "The count for OwnedChars is of characters gone past by Chars::nth; std skips in chunks of bytes, which is a constant factor."
  },
  {
   "property": "C71",
   "status": "proved",
   "theorems": [
    "CE.C71_nested",
    "CE.C71_inline",
    "CE.C71_anchors"
   ],
   "note": ""
  },
  {
   "property": "C72",
   "status": "proved",
   "theorems": [
    "CE.C72_order",
    "CE.C72_asymm",
    "CE.C72_reprinted",
    "CE.C72_false"
   ],
   "note": "Search on the HIR as for C46 (same hypothesis on digit classes); custom regexes within the modelled fragment."
  },
  {
   "property": "C73",
   "status": "proved",
   "theorems": [
    "CE.C73_search",
    "CE.C73_compiled",
    "CE.C73_regex",
    "CE.C73_split"
   ],
   "note": "For all regexes of the modelled fragment. The engine is modelled as leftmost-first backtracking on the HIR (Model/HirSearch); its automata are not."
  },
  {
   "property": "C74",
   "status": "proved",
   "theorems": [
    "CE.C74_pieces",
    "CE.C74_whole",
    "CE.C74_accepted",
    "CE.C74_false"
   ],
   "note": "For all valid regexes of the modelled fragment, not only regular ones."
  },
  {
   "property": "C75",
   "status": "proved",
   "theorems": [
    "CE.C75_flags"
   ],
   "note": "Which characters differ in case only is a parameter of the model (the table of simple case folding in regex_syntax)."
  },
  {
   "property": "C76",
   "status": "proved",
   "theorems": [
    "CE.C76_pieces",
    "CE.C76_spaces"
   ],
   "note": "The size limit of compiled regexes is outside the model, so large counts may be refused in reality. Which characters are digits, spaces, word characters, of a general category, or differ in case only is a parameter."
  },
  {
   "property": "C77",
   "status": "proved",
   "theorems": [
    "CE.C77_groups",
    "CE.C77_illegal",
    "CE.C77_lookaround"
   ],
   "note": "Groups one inside the other and repeated groups are the subject of C57. Names with characters outside ASCII are not modelled."
  },
  {
   "property": "C78",
   "status": "proved",
   "theorems": [
    "CE.C78_extends",
    "CE.C78_invalid",
    "CE.C78_valid",
    "CE.C78_refused",
    "CE.C78_closed"
   ],
   "note": "The refusal is finding 18. White space inside of tokens is outside the fragment (`unsupported`)."
  },
  {
   "property": "C79",
   "status": "proved",
   "theorems": [
    "CE.C79_arguments",
    "CE.C79_unique",
    "CE.C79_determined",
    "CE.C79_width",
    "CE.C79_literal",
    "CE.C79_string"
   ],
   "note": "Regular regexes as in C45 (all regexes without groups are)."
  },
  {
   "property": "C80",
   "status": "proved",
   "theorems": [
    "CE.C80_wider",
    "CE.C80_equivalent",
    "CE.C80_never"
   ],
   "note": "Regular regexes as in C45 (all regexes without groups are)."
  },
  {
   "property": "C81",
   "status": "proved",
   "theorems": [
    "CE.C81_says",
    "CE.C81_means",
    "CE.C81_grouped",
    "CE.C81_closed",
    "CE.C81_plain",
    "CE.C81_refused"
   ],
   "note": "Parts that contain white space or `#` themselves are left out unless after a backslash; so are inline flags."
  },
  {
   "property": "C82",
   "status": "proved",
   "theorems": [
    "CE.C82_texts",
    "CE.C82_shortest",
    "CE.C82_least",
    "CE.C82_some"
   ],
   "note": "An example shows that the condition on look-arounds is needed (`a$`)."
  },
  {
   "property": "C83",
   "status": "proved",
   "theorems": [
    "CE.C83_disjoint",
    "CE.C83_literal",
    "CE.C83_listed"
   ],
   "note": "Sufficient for expressions with parameters, exact where one of the two is literal or neither has parameters."
  },
  {
   "property": "C84",
   "status": "proved",
   "theorems": [
    "CE.C84_exclusive",
    "CE.C84_one",
    "CE.C84_collide",
    "CE.C84_builtin",
    "CE.C84_types"
   ],
   "note": "Assumes of the character tables that on ASCII `\\d` is `0` to `9`, and that `1` and `\"` are no white space."
  },
  {
   "property": "C85",
   "status": "proved",
   "theorems": [
    "CE.C85_longest",
    "CE.C85_most",
    "CE.C85_bounded",
    "CE.C85_builtin"
   ],
   "note": "`C85_builtin` assumes of the character tables that `0` is a digit and no white space."
  }
 ]
}