# Formal model of cucumber-rs/cucumber-expressions in Lean 4

## Layout (lean/Verif)

| directory | content |
| --- | --- |
| `Model/` | the model of the code, one definition per Rust function, each citing file and lines of /repo |
| `Spec/` | small specifications, independent of the model: grammar, printing, languages, locations, preferences |
| `Proof/` | helper lemmas |
| `Prop/` | the property theorems (`C01`, `C02`, ...), each with non-vacuity examples |
| `Test/` | the unit tests of /repo and README examples, replayed on the model (tests of the model, not proofs) |

`tools/props.py`, `tools/manifest.py` write `properties.jsonl`, `MANIFEST.json`; `tools/axioms.py` prints the axioms.
`seeded/LOG.jsonl` is the log of wrong programs (below).

## What is modelled

| /repo | model | how |
| --- | --- | --- |
| `src/ast.rs` | `Model/Ast`, `Model/Parse` (`Expression.parse`) | all types; `span_len`, `contains_only_optional`, `TryFrom<&str>`/`parse` |
| `src/combinator.rs` | `Model/Combinator` | `map_err`, `escaped0` statement by statement |
| `src/parse.rs` | `Model/Parse`, `Model/Nom` (`PErr`) | every function; the error type with `from_error_kind`, `append`; its messages in `Model/Display` |
| `src/expand/mod.rs` | `Model/Expand` | `EscapeForRegex`, `SkipLast`, `OwnedChars` as state machines with `next`; every `into_regex_char_iter` as the list of items it yields; `regex` |
| `src/expand/parameters.rs` | `Model/Parameters`, `Model/Hir` | `Provider` (any lookup function; HashMap: association list in arbitrary order), every `WithCustom` expansion, module `regex_hir`, `regex_with_parameters` |
| `fuzz/fuzz_targets/*` | | the claim of the fuzz targets (no panic, termination) is C08 |

External code the crate calls, modelled from knowledge of its source (the dependencies are not in the sandbox):

* `Model/Span`: `nom_locate::LocatedSpan<&str>`: fragment, byte offset, line. Lengths and slices are *byte* based with
  UTF-8 sizes; slicing inside a character or out of range is the explicit outcome `panic`.
* `Model/Nom`: the `nom` 8 combinators `tag take_while take_while1 one_of alt map verify peek many0 many1 separated_list1`.
* `Model/Regex`: `regex::Regex::new` on a fragment of its syntax (listed in the file): tokeniser and stack machine. What is
  outside the fragment (the flags `x` (but see `Model/Verbose`), `U`, `R`, `-u`, Unicode properties other than general categories by their abbreviated names, one-sided word boundaries, ...; numbers of 2³² or more in counts are not refused) is the error
  `unsupported`; theorems about the built-in parameters show that it never occurs there (C24).
* `Model/RegexSem`: what a regex matches in context with which captures (declarative). `\d \s \w` and the general categories are uninterpreted.
* `Model/RegexSearch`: the leftmost-first match that `Regex::captures` returns, as the first of an ordered list of tries, on
  the syntax tree; `Model/HirSearch`: the same on the HIR, which is what `regex` compiles.
* `Model/Hir`: the HIR of `regex_syntax` 0.8, its smart constructors (`concat`, `alternation` with flattening, class merging
  and prefix lifting, `repetition`) and its printer; `Model/Ranges`: its interval sets.
* `Model/Machine`: the parser (`Span`, `Nom`, `Combinator`, `Parse` and `Alternation::span_len`) with checked machine
  arithmetic and a meter.
* `Model/Meter`: how many characters `OwnedChars::next` goes past.
* `Model/Nest`: the nest limit of the `regex_syntax` parser, as a depth of its syntax tree.
* `Model/RegexAst`, `Model/Translate`: `regex_syntax::Parser::parse`, that is the syntax tree (same tokeniser and stack
  machine as `Model/Regex`; `parse_toRe` relates the two) and its translation into the HIR. The Unicode tables are
  arbitrary lists of ranges. Most theorems hold for any function `parseHir` in its place (C45_language assumes that it
  understands the custom regex as the `regex` parser does); `C45_understood` proves this of the modelled one.

Text is `List Char` (all Unicode scalar values). A parser returns `Except Err (Span × α)`, where `Err` is `nom::Err` plus
two outcomes which are no values in Rust: `panic` (a slice, subtraction or unwrap fails) and `diverge` (a loop or
recursion is not finished when the fuel of the model runs out; the fuel given is the number of remaining bytes for
loops and the number of brackets for the recursion). C08 proves that neither happens, so the fuel restricts nothing.

### Simplifications

* `usize`/`u32` counters are unbounded naturals, except in `Model/Machine`, which repeats the parser with checked
  fixed-width additions and a meter; C58 proves that the two agree. Memory and stack are unlimited; C40 bounds the
  recursion depth, and shows that it is not bounded by a constant.
* Generic input types `I` are instantiated by spans of strings (the type `Spanned` of the public API); C63 covers other types.
* In `Model/Expand` and `Model/Parameters` the iterators built from standard adapters (`chain`, `map`, `flat_map`) are the
  lists of their items. `Model/Adapters` builds them as state machines, with lookups as effects; C60 proves that the two
  agree. The adapters of `std` are modelled by their `next` only; `collect` (which uses `try_fold`) is repeated `next`.
* `regex_syntax::Error` values and the positions inside `regex::Error` are dropped; the limit of `regex` on the
  compiled size (10 MB) is not modelled; the nest limit (250) is a separate check (`Model/Nest`, C54), not part of `compile`.
* HIR: literals are valid UTF-8; as look-arounds only start and end of text or line, `\b` and `\B`. Interval sets: U+D7FF and U+E000 count as
  neighbours (`regex_syntax` may keep two ranges where the model has one; the set is the same).
* Search: an optional iteration of a repetition that matches the empty text is not tried.
* Not modelled: `Debug`, `Clone`, `AsRef`, `Deref` implementations, trait plumbing, `lib.rs` (re-exports only).

## Plan per property

* C01 C02 C03 C06 C09 C10 C11 C44: one core theorem `parse src = ok e ↔ ∃ canonical plain AST p, print p = src ∧ e = locate p`;
  each property is then a corollary stated directly about the returned AST.
* C04 C05: inductive grammar written from README; inclusion proved via the core theorem, strictness by witness.
* C07 C08 C18 C19 C12 C13 C14 C15 C17 C43: characterisation of each parser's outcome by the longest well-escaped run
  (`Spec/Errors`), then case analysis; C43 glues them to the canonical prefix.
* C16: false of the code (`abc\` is reported as EscapedNonReservedCharacter of `ab`); negation with a concrete witness,
  the actual answer in general, exactly when the claim holds, and the `_partial` theorem.
* C20: relational induction over the model; C21: corollary of the core theorem.
* C22 C23 C24 C26 C27 C28 C29 C33 C39 C42: pattern = print of a regex tree; parse (print r) = r; semantics of r.
* C25 C30 C31 C34 C35 C37 C38: inductions on the expansion model.
* C32: false for groups under repetition: negation by witness; `_partial`: what renaming does to every HIR of the fragment,
  and, through the translation, to every regular regex.
* C36: false (two invalid regexes join into a valid one): witness in the regex fragment; `_partial` for regexes
  containing `(` and for arrangements of complete tokens; `C36_single_partial` for one invalid regex of any other kind (an
  unfinished class, count or escape) among sound parameters: what follows it never closes a class (`Safe`), so whatever is
  read beyond the parenthesis was unfinished before (`lex_cut`), and an escaped parenthesis leaves the group open. A brace that
  begins no count makes a regex invalid whatever follows it (`C36_brace`, `C36_brace_partial`).
* C40: fuel is recursion depth: upper bound and lower bound by induction.
* C41: loop invariant of escaped0.
* C45: print/parse round trip of HIRs, renaming preserves matches (`Like`), composition over the elements; the translation
  of regular regexes (`Spec/Regular`) yields well-formed HIRs that match alike. False for `?` after a repetition and for groups
  that are repeated zero times or match only the empty text: witnesses; all other regexes of the fragment are regular.
* C46 C47: each element's tries are sorted by a preference order; concatenation sorts lexicographically. C47 is false for
  `float`; negation by witness, `_partial` for the others. For the HIR: the translation has the same tries in the same
  order, up to repeated ones (`Proof/Same`), except for alternations, where the common prefix is lifted (`Proof/Lift`).
* C48: the texts are compared by evaluation (no explanation is a suffix of another); the rest follows from C12.
* C49: every failure of C43 offers a character to escape (`SpotAt`), by cases; a measure decreases. The exception is C16.
* C50 C51 C52: matching depends on the plain tree only; joining two canonical trees merges texts at the seam, which does not
  change the language; the rest is distributivity of the splitting relation.
* C53: the pattern is the print of a list of atoms; both printing and reading back are functions, so equal patterns have equal
  atoms (`Spec/Spelled`).
* C54: depth of the syntax tree of the pattern, element by element, from above and from below, so that 248 is sharp. For
  custom regexes with capture groups the same of their printed form (`C54_printed`, `Spec/Enclosed.lean`), whose tree is known. That
  renaming makes a regex deeper: by induction over `(a(a(...)))`, through the parser, the translation, the renaming and the printer. What counts outside of classes: for all regexes (`C54_levels`). Classes: the depth is defined on the written form of C76 (`Spec/Levels.lean`), and agrees
  with that of the tree by induction over it, with the operation and the items before as parameters (`C54_classes`).
* C55: an arbitrary AST has the same pattern as one the lemmas of C23 and C24 apply to (`understood`); group names are
  injective in the ids.
* C56: the outcome theorems of C13, C14, C15, C17 give the kinds; one input per parser and kind. False for `parameter`:
  witness.
* C57: the labels of each parameter (`paramLabels`) are one without a name or names of its own; ids are distinct; induction
  over the parameters. False for groups inside repetitions: witness.
* C58 C59: `Model/Machine` is the parser once more, metered and with overflow. Each parser is related to the original by
  one invariant (`Run`): same result, cost amortised by the text consumed, constant cost of recoverable errors. Reading an
  optional, or text before one, may cost as much as the whole rest; a potential counts how often. Lower bound by induction.
* C60: one relation (`Traces`: items, state after each, `None` forever) and one lemma per adapter; the loop of `flat_map` is
  bounded by the parts left.
* C61: the relaxed grammar of C05 against an automaton (`Spec/Scanner`): words of the grammar run through it; conversely, what
  has been read since the last boundary is described by a language (`Pre`). Minimality: sixteen texts, told apart by suffixes.
* C62: the failures of C43, run through the automaton of C61.
* C63: the parsers once more, over a class of inputs (`Model/Generic`); a relation respected by the operations (`Spec/Generic:
  Alike`) is carried through every combinator. Inputs whose items are not characters are not modelled; `&[u8]` is excluded by
  the bound `Display` anyway.
* C64: the languages of C39 against the grammars in the documentation of `std` (`Spec/Values`).
* C65: induction over the elements; a mark which cannot occur in a piece determines where it ends.
* C66: the case analysis behind C07 stated as a relation; both directions.
* C67: from the relations of C13, C14, C15, C17 and C66; `C67_unbounded` by the same relations on `a(b)(b)...`.
* C68: induction over the elements, on the language of C23 without captures (`pLang`, `sLang`).
* C69: the 25 pairs of types one by one; then monotony of `sLang`.
* C70: lengths of the patterns of C42 element by element; `Model/Meter.lean` counts what `OwnedChars::next` goes past,
  exact sum by induction.
* C71: the pattern of an expression without its anchors is regular in the sense of C45 and has no repeated groups (read off
  the syntax tree of C42), so that C57 applies; its matches are those of C27. Inlining: joining of plain trees as in C50.
* C72: as C46, elements now with the characters around them. A renamed custom regex is printed, lexed and parsed to a syntax
  tree `astOf` of its HIR; HIRs that are results of the translation (`Normal`) translate back to themselves; translation
  with later group numbers only renumbers. Repetitions iterate over empty matches in the same simplified way by themselves
  and inside the expression. False with lazy exact counts, whose `?` the printer drops.
* C73: induction over the syntax tree: a HIR takes `x` between `pre` and `post` exactly if the syntax tree matches there. For
  each constructor of HIRs the tries are the same up to order and multiplicity (`Tidy` HIRs: sensible ranges); repetitions of
  what matches only the empty text are cut to one. A repetition drops optional empty iterations (`RepT`, `RepN`), which bounds
  the fuel. Captures agree group by group in their last one.
* C74: a printed HIR is lexed on its own and read as exactly one item with the groups of the HIR, even where it is read as
  another regex than was printed (`tidy_good`; a `?` after a repetition still belongs to that item). The translator and the renamer
  only drop groups, so the names are distinct (`NamesFrom`). With one item per parameter the pattern is read as `^`, the elements, `$`.
* C75: a lexer without flags followed by a pass that applies them (`resolve`), which restores them at the end of a group. The six
  shapes are lexed and read in general, and C57 applies, as they have no groups of their own.
* C76: `Spec/Pieces.lean` says how characters, escapes, classes and repetitions are written and which characters they have, as
  predicates, without tokens or trees. Lexing, reading and meaning by induction on that syntax; then C57. Added after a mutation run
  with all `example`s removed: mutants of the tables of escapes and classes were noticed by examples only. `Spec/Counts.lean` says what a
  count with spaces around its numbers is; `C76_spaces` (`Prop/Counts.lean`) proves that it reads as the count without them.
* C77: `Spec/Segments.lean` describes regexes as parts with and without parentheses. Reading by composition (`lexes_enclosed`,
  `buildA_inside`), then C57; the refusal via C36. Added for a mutant of the characters of names that no theorem noticed.
* C78: `Model/Verbose.lean` is the parser of the `regex` crate with the flag `x`: the same tokens (`lexOne`), white space and comments
  skipped in between, and a stack for the values of the flag. `C78_extends`: it agrees with `Model/Regex` on what that accepts.
  `Spec/Verbose.lean` says inductively what a text says without white space and comments, and whether its last comment has ended. The
  refusal counts the groups opened less those closed (`net_resolve`, `net_build`): one remains. Not covered: `(?x)` after which other
  tokens than plain characters follow, except in `C78_extends`.
* C79 C80: `Spec/Cuts.lean` records the texts of the parameters instead of their captures. Induction over the elements as for C65;
  two texts of an element at the same place are comparable, so equal if none begins with another. C80: where groups are numbered
  from does not matter for what a regex matches (`match_anywhere`), so the splits of C45 are monotonic in the parameters.
* C81: `Spec/Formatted.lean` says what the parts are and how they are laid out. `Proof/Formatted.lean`: one part is one or two tokens,
  whatever is around it, by cases (the lemmas of C63 and C66 for pieces and openings); induction over the layout, with the depth of
  groups as parameter, because the flag is restored at the end of a group. In an expression as for C78; refused because a group is
  not closed (counting weights). That the empty group changes nothing (`Proof/EmptyGroup.lean`): a simulation of the stack machine,
  whose frames agree up to regexes with the same matches and up to an empty item at the beginning of a branch.

* C82: `Spec/Texts.lean` says what the texts are. A regex without anchors and word boundaries matches the same texts whatever is
  around them (structural induction, induction over repetitions); together with C45 this gives the texts of an expression.
* C83: from the first half of C82, which needs no condition on look-arounds, and what is known of prefixes and suffixes.

* C84: as for C83, with one more element. For the built-in types: a common text for each pair, and that numbers have no quotes.

* C85: as for C82, from the texts of the expression, with maxima for minima. The bound of a regex by induction on it.

## Findings about the code

None was observed by running the code. 2, 7, 8, 10 and 12 rest on the model of `regex_syntax` as well, which is written from
knowledge of that crate and could not be compared with its source here.

1. C16: a trailing backslash after other text is reported as EscapedNonReservedCharacter, not EscapedEndOfLine.
2. C32: capture groups inside a repetition of a custom regex are neither counted nor renamed.
3. C36: invalid custom regexes without `(` are inserted unchecked: with `a = ")("`-like halves, two invalid regexes can
   combine to a valid regex with another meaning. Even a single one can, if it begins with `?` or, like `)\`, has a closing
   parenthesis and ends with a backslash (`C36_completed_false`).
4. C47: `{float}{word}` splits `1.5kg` into `1` and `.5kg`.
5. C05: more is accepted than the README grammar allows (`\)` anywhere, several texts and optionals per branch).
6. C48: the message of EscapedEndOfLine ends with `escape the the ''` (the Rust escape `\'` is a plain quote), naming no
   character; C49: with C16 the advice given for a trailing backslash cannot be followed.
7. C45: `regex_syntax` prints nested repetitions without separation (`(?:b+)?` as `b+?`), so that a custom regex with a
   capture group, such as `(a)(?:b+)?`, changes its meaning when it is inserted.
8. C46: `regex_syntax` moves the common prefix of all branches out of an alternation, optionals included. Which branch is
   taken, and so what later parameters capture, can change: `(a)ab/(a)bc{}` on `abcd` yields `d`, though the pattern
   prefers `ab` followed by `cd`.
9. C40: error reporting recurses once per nested bracket: `{{{{...` overflows the stack of the real program.
10. C54: a custom regex with capture groups is printed with an additional `(?:...)` around each concatenation. A valid regex
   nested 167 deep, `(a(a(...)))` with 84 groups, becomes 252 deep and its expression is refused by `Regex::new`.
11. C56: `parse::parameter` can fail with EscapedEndOfLine (on `{\`), which its documentation does not list.
12. C57: a custom regex all of whose groups are inside repetitions, such as `(?:(a)b)+`, is inserted as `((?:(a)b)+)`: several
   groups without a name for one parameter, so the captures of later parameters cannot be told by the documented rule.
13. C58: line numbers are `u32`: an expression with 2^32 - 1 newlines overflows the counter (panic with overflow checks).
14. C59: `(a)(a)(a)...` takes quadratic time.
15. C64: `{int}` and `{float}` use the Unicode class `\d`: they match digits, such as U+0663, that `str::parse` refuses.
16. C70: `OwnedChars::next` restarts `chars().nth(cur)` on every call; reading `n` characters is quadratic in `n`.
17. C72: the printer of `regex_syntax` drops the `?` of `x{n}?`. That alone changes nothing, but two branches which differed only
    in it now begin alike, and the common prefix is moved out of the alternation: `{p}` with
    `(?:a|ab){2}?(c?)|(?:a|ab){2}(bc?)` captures something else than the regex itself.
18. C74: a custom regex without `(` is inserted without being parsed. An invalid one can turn into a valid whole that is no longer
    anchored: `)|x\` for `p` makes `{p}` into `^()|x\)$`, which is found in every text.
    C78: `(?x)a # c` is valid by itself but inserted as `((?x)a # c)`, where the comment swallows the rest of the pattern, so every
    expression with it is rejected (`C78_refused`), unless a newline follows.

## Wrong programs

`seeded/LOG.jsonl`: each line is an edit of a model definition that imitates a realistic bug. In a scratch copy with all proofs
replaced by `sorry`, the named theorems are first *refuted* in the edited model on a concrete input (so the theorem's
statement notices the bug, not only its proof script), then the real project is rebuilt with the edit and must fail.

## Trusted base

* Lean's kernel. No axioms of our own, no `sorry`, no `native_decide`, no `bv_decide`. Of Mathlib only `Mathlib.Computability.DFA` is imported (for C61).
* The reading of the Rust source, and of `nom`, `nom_locate`, `regex`, `regex-syntax` as described above.
* Axioms the theorems of MANIFEST.json depend on (`tools/axioms.py`):

  * none: `C48_advice_generic`
  * `propext`: `C09_escd_occurrence`, `C37_skipLast`, `C62_prefix`, `C64_int_plus`, `C64_unquoted`, `C65_int_end`, `C65_float_end`, `C65_word_end`, `C70_same`, `C79_literal`
  * `Quot.sound`, `propext`: `C31_lookup`, `C31_order`, `C38_ownedChars`, `C38_ownedChars_yields`, `C41_escaped0_takeWhile`, `C41_escaped0_takeWhile1`, `C41_takeWhile_eq_takeWhile1`, `C46_compiled_order`, `C46_order`, `C48_advice`, `C48_stage`, `C49_progress`, `C58_sharp`, `C58_truncated`, `C63_generic`, `C63_spanned`, `C63_str`, `C63_str_ok`, `C63_extra`, `C64_int_readable`, `C64_int_missing`, `C64_int_unicode`, `C64_float_readable`, `C69_types`, `C70_quadratic`, `C84_builtin`
  * `Classical.choice`, `Quot.sound`, `propext`: `C01_lossless`, `C02_spans_located`, `C03_ids`, `C04_readme_accepted`, `C05_accepts_iff_relaxed`, `C05_strict`, `C06_print_then_parse`, `C06_parse_then_print`, `C06_unambiguous`, `C06_reparse`, `C07_parse_total`, `C07_expression_all_or_nothing`, `C08_no_panic`, `C08_parse_no_panic`, `C09_wellFormed`, `C10_adjacency`, `C11_alternations`, `C12_error_spans`, `C13_optional`, `C14_parameter`, `C15_alternation_failure`, `C15_empty`, `C15_onlyOptional`, `C15_ok`, `C16_trailing_backslash_partial`, `C16_actual`, `C16_false`, `C16_iff`, `C17_alternative`, `C17_escaped_nonreserved`, `C17_after_accepted`, `C18_parameter_indexer`, `C18_single_indexer`, `C19_recoverability`, `C20_optional`, `C20_parameter`, `C20_alternative`, `C20_alternation`, `C20_single`, `C20_expression`, `C21_compose`, `C22_literal`, `C22_escape_yields`, `C23_language`, `C27_captures`, `C24_valid`, `C24_never_invalid`, `C25_first_unknown`, `C25_located`, `C25_with_parameters`, `C26_groups`, `C27_located`, `C28_names_unique`, `C28_names_injective`, `C29_whole`, `C42_pattern`, `C30_fallback`, `C30_local`, `C30_precedence`, `C31_expansion`, `C32_renamed_partial`, `C32_unrepeated_partial`, `C32_regular_partial`, `C32_false`, `C33_expressible`, `C34_parenthesised`, `C35_raw`, `C35_lookup`, `C35_escaped`, `C36_parens_partial`, `C36_arrangement_partial`, `C36_single_partial`, `C36_brace`, `C36_brace_partial`, `C36_false`, `C36_completed_false`, `C39_builtin`, `C40_depth_sufficient`, `C40_depth_necessary`, `C43_parse_err_iff`, `C43_dichotomy`, `C44_spans_ordered`, `C45_language`, `C45_plain`, `C45_understood`, `C45_regular_partial`, `C45_false`, `C45_groups_false`, `C46_compiled`, `C46_returned`, `C46_same_order`, `C46_same`, `C46_tree_differs`, `C47_longest_partial`, `C47_false`, `C47_compiled_partial`, `C47_compiled_false`, `C48_message`, `C48_unambiguous`, `C48_parameter`, `C49_step`, `C49_any_order`, `C49_repairable`, `C49_stuck`, `C50_accepted`, `C50_concat`, `C50_concat_custom`, `C50_touching`, `C50_anchors`, `C51_optional`, `C51_optional_custom`, `C51_in_branch`, `C51_in_branch_custom`, `C52_alternation`, `C52_alternation_custom`, `C52_order`, `C52_order_custom`, `C53_same_pattern`, `C53_escapes_matter`, `C53_differ_in_escapes`, `C54_builtin`, `C54_within_limit`, `C54_custom`, `C54_custom_within_limit`, `C54_custom_iff`, `C54_levels`, `C54_classes`, `C54_brackets`, `C54_printed`, `C54_printed_iff`, `C54_regular`, `C54_renamed_deeper`, `C54_no_constant`, `C54_beyond`, `C55_total`, `C55_valid`, `C55_language`, `C55_unknown`, `C56_documented_failures_partial`, `C56_false`, `C57_attribution_partial`, `C57_names_partial`, `C57_builtin`, `C57_false`, `C58_no_overflow`, `C58_64bit`, `C58_32bit`, `C58_parsers`, `C58_parameter_count`, `C59_work`, `C59_linear`, `C59_quadratic`, `C59_quadratic_reached`, `C60_iterators`, `C60_lists`, `C60_trace`, `C60_lookups`, `C60_stateless`, `C60_log`, `C61_scanner`, `C61_automaton`, `C61_regular`, `C61_minimal`, `C62_completable`, `C62_three_characters`, `C62_hopeless`, `C62_unfinished_parameter`, `C62_exact`, `C62_inexact`, `C64_int_printed`, `C64_int_read_back`, `C64_signed_read_back`, `C64_float_printed`, `C64_string`, `C65_unique`, `C65_returned`, `C65_spaced`, `C65_ambiguous`, `C66_single`, `C67_optional`, `C67_parameter`, `C67_alternative`, `C67_alternation`, `C67_single`, `C67_unbounded`, `C68_shortest`, `C68_empty`, `C68_finite`, `C68_infinite`, `C69_replace`, `C70_pattern`, `C70_ids`, `C71_nested`, `C71_inline`, `C71_anchors`, `C72_order`, `C72_asymm`, `C72_reprinted`, `C72_false`, `C73_search`, `C73_compiled`, `C73_regex`, `C73_split`, `C74_pieces`, `C74_whole`, `C74_accepted`, `C74_false`, `C75_flags`, `C76_pieces`, `C76_spaces`, `C77_groups`, `C77_illegal`, `C77_lookaround`, `C78_extends`, `C78_invalid`, `C78_valid`, `C78_refused`, `C78_closed`, `C79_arguments`, `C79_unique`, `C79_determined`, `C79_width`, `C79_string`, `C80_wider`, `C80_equivalent`, `C80_never`, `C81_says`, `C81_means`, `C81_grouped`, `C81_closed`, `C81_plain`, `C81_refused`, `C82_texts`, `C82_shortest`, `C82_least`, `C82_some`, `C83_disjoint`, `C83_literal`, `C83_listed`, `C84_exclusive`, `C84_one`, `C84_collide`, `C84_types`, `C85_longest`, `C85_most`, `C85_bounded`, `C85_builtin`
