{"id": "C01", "title": "Parsing is lossless", "statement": "If Expression::parse(s) succeeds, then writing out the returned AST from left to right (text and whitespace verbatim, `{name}` for parameters, `(text)` for optionals, branches joined by `/` for alternations) reproduces s exactly, character for character.", "quantifier": "every input string", "why_tests_cant": "Unit tests compare a handful of ASTs; dropping or duplicating a character can occur at any escape, multi-byte character or boundary.", "anchors": ["src/parse.rs:expression", "src/ast.rs:Expression::parse"]}
{"id": "C02", "title": "Every span of the AST is correctly located", "statement": "Every LocatedSpan stored in the AST returned by Expression::parse(s) is a sub-slice of s: its fragment occurs in s at exactly its byte offset, and its line is one plus the number of newlines before that offset.", "quantifier": "every input string and every span in its AST", "why_tests_cant": "Offsets are byte offsets over UTF-8 of arbitrary text; tests only check ASCII and one emoji.", "anchors": ["src/parse.rs:expression", "src/ast.rs:Spanned"]}
{"id": "C03", "title": "Parameter ids are 0,1,2,... in source order", "statement": "The ids of the Parameters in the AST returned by Expression::parse(s), read from left to right, are exactly 0,1,...,n-1 where n is the number of parameters.", "quantifier": "every input string", "why_tests_cant": "Only sampled with two parameters; backtracking between alternatives could burn ids on other inputs.", "anchors": ["src/parse.rs:parameter", "src/parse.rs:single_expression", "src/parse.rs:expression"]}
{"id": "C04", "title": "Everything the documented grammar derives is accepted", "statement": "Every string derivable from `expression` in the EBNF grammar of README.md is accepted by Expression::parse.", "quantifier": "every string in an infinite context-free language", "why_tests_cant": "The language is infinite and the grammar ambiguous; greedy parsing could reject a derivable string.", "anchors": ["README.md#grammar", "src/parse.rs:expression"]}
{"id": "C05", "title": "Exactly the relaxed documented grammar is accepted", "statement": "Expression::parse accepts s iff s is derivable in the README grammar relaxed in two points: any of `{}()\\/ ` may be escaped anywhere, and one branch of an alternation is any non-empty sequence of texts and optionals with at least one text. The relaxation is real: some accepted string (e.g. `\\)`) is not derivable in the README grammar.", "quantifier": "every input string, both directions", "why_tests_cant": "Rejection of every non-member cannot be sampled.", "anchors": ["README.md#grammar", "src/parse.rs:expression", "src/parse.rs:alternation"]}
{"id": "C06", "title": "Printing and re-parsing an AST is the identity", "statement": "For every canonical AST (one satisfying the documented element and adjacency rules) printing it gives a string which Expression::parse maps back to that same AST; conversely every AST returned is canonical. So parse and print are mutually inverse bijections.", "quantifier": "every canonical AST and every input string", "why_tests_cant": "Requires quantifying over all trees.", "anchors": ["src/parse.rs:expression", "src/ast.rs:Expression"]}
{"id": "C07", "title": "Parsing is all-or-nothing with specific errors", "statement": "Expression::parse(s) returns either an AST for the whole of s, or one of the specific documented errors; it never returns Error::Other or Error::Needed, and parse::expression never returns a non-empty rest nor a recoverable error.", "quantifier": "every input string", "why_tests_cant": "Absence of an error value over all inputs is not testable.", "anchors": ["src/ast.rs:TryFrom for Expression", "src/parse.rs:expression", "src/parse.rs:Error"]}
{"id": "C08", "title": "Public parsers never panic and always terminate", "statement": "parse::{parameter, optional, alternative, alternation, single_expression, expression} and Expression::parse return (do not panic on slicing at non-character boundaries, out-of-range slices or integer underflow, and do not loop for ever) on every input.", "quantifier": "every input string (any Unicode) and every indexer value", "why_tests_cant": "Fuzzing samples only; a byte slice inside a multi-byte character panics only on specific inputs.", "anchors": ["fuzz/fuzz_targets", "src/parse.rs:parameter", "src/parse.rs:optional", "src/parse.rs:alternation", "src/ast.rs:Alternation::span_len", "src/combinator.rs:escaped0"]}
{"id": "C09", "title": "Elements of a parsed AST are well formed", "statement": "In every AST returned by Expression::parse: Text is non-empty with no unescaped ` `, `(`, `{`, `/`; Whitespaces is non-empty and only spaces; Optional is non-empty with no unescaped `(`, `)`, `{`, `/`; Parameter names have no unescaped `{`, `}`, `(`, `/`; and every backslash in any of them begins a two-character escape of a reserved character.", "quantifier": "every input string and every AST element", "why_tests_cant": "Needs all inputs.", "anchors": ["src/parse.rs:single_expression", "src/parse.rs:optional", "src/parse.rs:parameter"]}
{"id": "C10", "title": "Maximal munch / element adjacency", "statement": "In every AST returned by Expression::parse no two Texts and no two Whitespaces are adjacent, and an Alternation is never adjacent to a Text, an Optional or another Alternation: it extends to the nearest whitespace, parameter or end of input on both sides.", "quantifier": "every input string", "why_tests_cant": "A statement about all neighbours in all ASTs.", "anchors": ["src/parse.rs:single_expression", "src/parse.rs:alternation"]}
{"id": "C11", "title": "Alternations are never degenerate", "statement": "Every Alternation in a parsed AST has at least two branches, every branch is non-empty, contains at least one Text, has no two adjacent Texts, and its texts/optionals are well formed.", "quantifier": "every input string", "why_tests_cant": "Needs all inputs.", "anchors": ["src/parse.rs:alternation", "src/ast.rs:Alternation::contains_only_optional"]}
{"id": "C12", "title": "Error spans point into the source", "statement": "Every error returned by Expression::parse(s) carries a span that is a non-empty sub-slice of s at exactly its reported byte offset and line.", "quantifier": "every rejected input string", "why_tests_cant": "Needs all rejected inputs; offsets arise from nested look-ahead parses.", "anchors": ["src/parse.rs:Error", "src/parse.rs:parameter", "src/parse.rs:optional"]}
{"id": "C13", "title": "optional(): outcome fully determined by the grammar", "statement": "parse::optional on any input returns: a recoverable error iff the input does not start with `(`; otherwise, with t the longest well-escaped run of optional text, success iff `)` follows and t is non-empty, and else exactly the documented failure (EmptyOptional, AlternationInOptional, NestedOptional, ParameterInOptional, UnescapedReservedCharacter, UnfinishedOptional) with the documented span.", "quantifier": "every input string", "why_tests_cant": "A case split over all inputs; tests cover a few strings per error.", "anchors": ["src/parse.rs:optional"]}
{"id": "C14", "title": "parameter(): outcome fully determined by the grammar", "statement": "parse::parameter on any input returns: a recoverable error iff the input does not start with `{`; otherwise, with t the longest well-escaped run of name text, success iff `}` follows, and else exactly the documented failure (NestedParameter, OptionalInParameter, UnescapedReservedCharacter, UnfinishedParameter) with the documented span.", "quantifier": "every input string", "why_tests_cant": "As C13.", "anchors": ["src/parse.rs:parameter"]}
{"id": "C15", "title": "Alternation errors", "statement": "parse::alternation fails with EmptyAlternation on the offending `/` exactly when (no earlier failure occurring) a branch is empty, and with OnlyOptionalInAlternation, whose span is exactly the whole alternation, exactly when it has several non-empty branches one of which has only optionals.", "quantifier": "every input string", "why_tests_cant": "Span length is computed from the parts, not taken from the consumed input; equality for all inputs is needed.", "anchors": ["src/parse.rs:alternation", "src/ast.rs:Alternation::span_len"]}
{"id": "C16", "title": "A trailing backslash is reported as EscapedEndOfLine", "statement": "If the only defect of the text is that it ends with an unescaped backslash, the error is EscapedEndOfLine on that backslash. (False of the code: only when nothing precedes the backslash in the same text run.)", "quantifier": "every well-formed text run followed by a trailing backslash", "why_tests_cant": "The test only tries the one-character input.", "anchors": ["src/parse.rs:escaped_reserved_chars0", "src/combinator.rs:escaped0"]}
{"id": "C17", "title": "Escaping a non-reserved character is always rejected, at the right place", "statement": "If a run of text contains a backslash followed by a character which is not one of `{}()\\/ `, the parser fails with EscapedNonReservedCharacter whose span is exactly that backslash and the following (possibly multi-byte) character, for the leftmost such place.", "quantifier": "every text context, every prefix, every non-reserved character, every continuation", "why_tests_cant": "All Unicode characters and all prefixes.", "anchors": ["src/parse.rs:escaped_reserved_chars0", "src/combinator.rs:escaped0"]}
{"id": "C18", "title": "Indexer discipline", "statement": "parse::parameter and parse::single_expression increase the given indexer by exactly one iff they return a Parameter (which then carries the previous value as id) and leave it unchanged in every other case, including all errors.", "quantifier": "every input string and indexer value", "why_tests_cant": "Needs all error paths including nested look-ahead parses.", "anchors": ["src/parse.rs:parameter", "src/parse.rs:single_expression"]}
{"id": "C19", "title": "Recoverable and irrecoverable errors are separated", "statement": "A recoverable nom error of any public parser always carries Error::Other, and an irrecoverable Failure never does; Incomplete is never returned. Recoverability is decided as documented (first character / missing `/`).", "quantifier": "every input string, every public parser", "why_tests_cant": "Combinators such as alt/many1 silently swallow recoverable errors; absence needs all inputs.", "anchors": ["src/parse.rs:Error", "src/parse.rs:parameter", "src/parse.rs:optional", "src/parse.rs:alternative", "src/parse.rs:alternation", "src/parse.rs:single_expression"]}
{"id": "C20", "title": "Parsing does not depend on the location", "statement": "Running a parser on a fragment at another offset/line yields the same AST or error with every offset and line shifted by that amount.", "quantifier": "every input fragment and every starting location", "why_tests_cant": "Relational property over pairs of runs.", "anchors": ["src/parse.rs:expression", "src/ast.rs:Spanned"]}
{"id": "C21", "title": "Expressions compose at whitespace", "statement": "If a and b parse, a does not end and b does not begin with whitespace elements, then a ++ spaces ++ b parses, and its AST is that of a, the whitespace, and that of b with spans shifted and ids renumbered.", "quantifier": "every pair of accepted strings and every non-empty run of spaces", "why_tests_cant": "Relational property over triples of strings.", "anchors": ["src/parse.rs:expression"]}
{"id": "C22", "title": "EscapeForRegex turns expression text into an equivalent regex literal", "statement": "For well-escaped text t, the characters produced by EscapeForRegex form a regex whose language is exactly the single string obtained from t by removing escaping backslashes; every regex meta-character in the output is escaped, and nothing else is.", "quantifier": "every well-escaped text", "why_tests_cant": "All strings; one missed meta-character breaks it.", "anchors": ["src/expand/mod.rs:EscapeForRegex"]}
{"id": "C23", "title": "The regex matches exactly the expression's language", "statement": "For every expression s with only built-in parameters, Expression::regex(s) matches a string w iff w is a concatenation of: unescaped text, whitespace, optional text or nothing, one branch of each alternation, and a member of the parameter type's language for each parameter.", "quantifier": "every accepted expression and every subject string", "why_tests_cant": "Two unbounded quantifiers.", "anchors": ["src/expand/mod.rs:Expression::regex", "src/expand/mod.rs:IntoRegexCharIter"]}
{"id": "C24", "title": "Expansion with known parameters always yields a valid regex", "statement": "For every s accepted by Expression::parse whose parameters are all built in, the produced pattern is a syntactically valid regex (no unbalanced groups, no dangling repetition, no duplicate group name).", "quantifier": "every accepted expression", "why_tests_cant": "All expressions.", "anchors": ["src/expand/mod.rs:Expression::regex"]}
{"id": "C25", "title": "The first unknown parameter is reported", "statement": "Expression::regex(s) fails with ParameterError::NotFound iff s parses and some parameter is neither custom nor built in, and then the reported name is that of the leftmost such parameter, with its location.", "quantifier": "every accepted expression", "why_tests_cant": "Iterator laziness/order over all expressions.", "anchors": ["src/expand/mod.rs:IntoRegexCharIter for Parameter", "src/expand/mod.rs:Expression::regex"]}
{"id": "C26", "title": "Capture groups correspond to parameters in order", "statement": "The produced regex has, in order, for each parameter of the expression: one capture group for int, float, word and anonymous, and two for string; alternations, optionals and text contribute none.", "quantifier": "every accepted expression with built-in parameters", "why_tests_cant": "All expressions.", "anchors": ["src/expand/mod.rs:IntoRegexCharIter"]}
{"id": "C27", "title": "Captured text is the argument", "statement": "Whenever the regex matches w, w splits into pieces, one per AST element, such that the captures of each parameter are exactly its piece (for string: the piece without quotes in exactly one of its two groups), and the piece belongs to the parameter type's language.", "quantifier": "every accepted expression, every subject, every way of matching", "why_tests_cant": "Ambiguous regexes have many match paths.", "anchors": ["src/expand/mod.rs:IntoRegexCharIter for Parameter"]}
{"id": "C28", "title": "Generated group names are unique", "statement": "No two named groups of the regex produced by Expression::regex(s) have the same name, whatever the number of string parameters.", "quantifier": "every accepted expression", "why_tests_cant": "Unbounded number of parameters; decimal rendering of ids must be injective.", "anchors": ["src/expand/mod.rs:IntoRegexCharIter for Parameter"]}
{"id": "C29", "title": "Whole-string matching", "statement": "The produced pattern always begins with `^` and ends with `$`, and both anchor the entire pattern, so a match is always a match of the whole subject.", "quantifier": "every accepted expression and subject", "why_tests_cant": "An unescaped or unbalanced `|` would break anchoring on one side only for some inputs.", "anchors": ["src/expand/mod.rs:IntoRegexCharIter for Expression"]}
{"id": "C30", "title": "Custom parameters take precedence, others fall back", "statement": "With a provider of custom parameters, a parameter known to the provider is expanded from the provider's regex even if its name is built in; one unknown to the provider is expanded exactly as without the provider; and all other elements are expanded as without it.", "quantifier": "every AST, every provider", "why_tests_cant": "All providers.", "anchors": ["src/expand/parameters.rs:WithCustom", "src/expand/parameters.rs:Provider"]}
{"id": "C31", "title": "HashMap provider is independent of iteration order", "statement": "The lookup through a HashMap with pairwise distinct keys returns the value of the unique key equal to the parameter's source text, whatever the iteration order.", "quantifier": "every map and every permutation of its entries", "why_tests_cant": "HashMap order is randomised per process.", "anchors": ["src/expand/parameters.rs:Provider for HashMap"]}
{"id": "C32", "title": "Capture groups of a custom parameter are renamed uniquely", "statement": "When a custom regex has capture groups, after expansion its capture groups are named __{id}_0, __{id}_1, ... in order of their opening parentheses. (False of the code for groups inside a repetition, which are neither counted nor renamed.)", "quantifier": "every regex HIR and every parameter id", "why_tests_cant": "All trees.", "anchors": ["src/expand/parameters.rs:regex_hir::rename_capture_groups", "src/expand/parameters.rs:regex_hir::has_capture_groups"]}
{"id": "C33", "title": "Every literal string is expressible", "statement": "For every string w, the expression obtained by prefixing each reserved character of w with a backslash parses, and its regex matches exactly w.", "quantifier": "every string", "why_tests_cant": "All strings.", "anchors": ["src/parse.rs:RESERVED_CHARS", "src/expand/mod.rs:EscapeForRegex", "src/parse.rs:expression"]}
{"id": "C34", "title": "Custom regex without groups is one capture group", "statement": "A custom parameter whose regex has no opening parenthesis, or no capture group, expands to exactly `(` regex `)`.", "quantifier": "every provider value", "why_tests_cant": "All values.", "anchors": ["src/expand/parameters.rs:WithCustom<Parameter>"]}
{"id": "C35", "title": "Custom parameter names are looked up by raw source text", "statement": "The provider and the built-in table are consulted with the source text between the braces, with escapes unresolved: `{a\\/b}` is found under `a\\/b` and not under `a/b`.", "quantifier": "every parameter name", "why_tests_cant": "All names.", "anchors": ["src/parse.rs:parameter", "src/expand/parameters.rs:Provider for HashMap"]}
{"id": "C36", "title": "A malformed custom regex is always rejected", "statement": "If an expression uses a custom parameter whose regex is invalid, building the regex fails. (False of the code when the invalid regex has no opening parenthesis: two invalid regexes can join into a valid one.)", "quantifier": "every expression, every provider", "why_tests_cant": "Interaction between several parameters.", "anchors": ["src/expand/parameters.rs:WithCustom<Parameter>", "src/expand/mod.rs:Expression::regex_with_parameters"]}
{"id": "C37", "title": "SkipLast yields everything but the last item", "statement": "SkipLast over an iterator yields exactly its items without the last one, in order; nothing for an empty iterator.", "quantifier": "every finite iterator", "why_tests_cant": "All sequences.", "anchors": ["src/expand/mod.rs:SkipLast"]}
{"id": "C38", "title": "OwnedChars yields exactly the characters of its string", "statement": "OwnedChars over a string yields its characters in order once and then None for ever.", "quantifier": "every string and every number of next calls", "why_tests_cant": "All strings and call histories.", "anchors": ["src/expand/mod.rs:OwnedChars"]}
{"id": "C39", "title": "Built-in parameter languages", "statement": "int matches exactly optional `-` and one or more digits; word one or more non-whitespace characters; anonymous any characters but newline; string exactly a double- or single-quoted text in which quotes and backslashes inside are escaped; float exactly optional sign then inf, NaN or decimal digits with optional point and exponent.", "quantifier": "every subject string", "why_tests_cant": "All strings.", "anchors": ["src/expand/mod.rs:IntoRegexCharIter for Parameter"]}
{"id": "C40", "title": "Recursion depth", "statement": "The nesting depth of the recursive calls of parse::parameter/optional is at most one more than the number of opening braces and parentheses of the input. (A constant bound is false: `{{{{...` needs one nested call per brace.)", "quantifier": "every input string", "why_tests_cant": "Unbounded inputs.", "anchors": ["src/parse.rs:parameter", "src/parse.rs:optional"]}
{"id": "C41", "title": "escaped0 matches the longest well-escaped prefix", "statement": "combinator::escaped0 with `normal` a take_while or take_while1 parser returns the longest prefix of the input that is a sequence of normal characters and control-character/escapable pairs, and errors iff that prefix is followed by the control character.", "quantifier": "every input, every predicate", "why_tests_cant": "All strings; mutable loop flags.", "anchors": ["src/combinator.rs:escaped0"]}
{"id": "C42", "title": "Branches and optionals do not leak", "statement": "In the produced pattern every Optional and Alternation is enclosed in its own non-capturing group, so `?` and `|` bind only what the expression says.", "quantifier": "every accepted expression", "why_tests_cant": "All nestings.", "anchors": ["src/expand/mod.rs:IntoRegexCharIter for Alternation", "src/expand/mod.rs:IntoRegexCharIter for Optional"]}
{"id": "C43", "title": "Rejections are fully characterised", "statement": "Expression::parse(s) fails with error e iff s is a well-formed (canonical) sequence of elements followed by a rest at which the next element fails with e according to the documented rules for parameters, optionals, texts and alternations; every s is either accepted or rejected with exactly one such e.", "quantifier": "every input string, both directions", "why_tests_cant": "Needs every rejected input and every error path.", "anchors": ["src/parse.rs:expression", "src/parse.rs:single_expression", "src/ast.rs:Expression::parse"]}
{"id": "C44", "title": "Spans of the AST are disjoint and ordered", "statement": "The spans stored in the AST of Expression::parse(s), read from left to right, occupy strictly increasing, pairwise disjoint byte ranges of s.", "quantifier": "every input string and every pair of spans", "why_tests_cant": "A statement about all pairs of spans of all ASTs.", "anchors": ["src/parse.rs:expression", "src/ast.rs:Spanned"]}
{"id": "C45", "title": "Language and captures with custom parameters", "statement": "If every parameter of an expression is built in or has a valid custom regex, Expression::regex_with_parameters fails only if two named groups collide, and otherwise the regex matches exactly the subjects that split into one piece per element, where a custom parameter matches exactly what its own regex matches by itself, and its captures are the regex's own (if it has groups) or its whole piece. (False of the code for regexes with a group and nested repetitions such as `(a)(?:b+)?`, which are printed as `(a)b+?`, and for groups that cannot take part in a match, as in `(a)(b){0}`.)", "quantifier": "every accepted expression, every provider, every subject", "why_tests_cant": "All providers and all subjects.", "anchors": ["src/expand/parameters.rs:WithCustom", "src/expand/parameters.rs:regex_hir", "src/expand/mod.rs:Expression::regex_with_parameters"]}
{"id": "C46", "title": "Which match is returned", "statement": "If an expression with built-in parameters matches a text in several ways, the match returned by the regex is the most preferred one: at the first element where two ways differ, an optional is rather present than absent, an earlier branch of an alternation is preferred (except that the optionals which all branches begin with are decided before the branch is: `(a)ab/(a)bc{}` on `abcd` yields `d`), and int, word, string and anonymous parameters take rather a longer text, floats rather a number without a point, then a longer mantissa, then a longer exponent. The order is strict, so the returned arguments are determined by expression and text alone. Nothing is returned iff the text is not in the language of the expression.", "quantifier": "every accepted expression with built-in parameters, every subject, every other way of matching", "why_tests_cant": "Ambiguity is unbounded; tests look at a single captured value.", "anchors": ["src/expand/mod.rs:IntoRegexCharIter for Parameter", "src/expand/mod.rs:Expression::regex"]}
{"id": "C47", "title": "Parameters take the longest possible text", "statement": "In the returned match every built-in parameter takes the longest text with which, given what the elements before it match, the rest of the expression can still match. (False of the code for float: `{float}{word}` takes `1` and `.5kg` from `1.5kg`, since the alternative without a point comes first.)", "quantifier": "every accepted expression with built-in parameters, every subject", "why_tests_cant": "Only visible for expressions in which the parameter is directly followed by something flexible.", "anchors": ["src/expand/mod.rs:IntoRegexCharIter for Parameter"]}
{"id": "C48", "title": "Error messages are located and unambiguous", "statement": "The message (Display) of every error of Expression::parse consists of a non-empty slice of the source at the location of the error, and an explanation starting on a new line that depends only on the kind of error; two errors with equal messages have the same kind and quote the same text; the explanation spells out the escape sequence it proposes, for every kind that proposes a particular one. The message of an error of Expression::regex tells which stage failed; if a parameter could not be expanded, it quotes the name of the leftmost such parameter as written in the source, and its custom regex if that is the reason.", "quantifier": "every rejected input, every pair of errors", "why_tests_cant": "Messages of all inputs: a fragment could itself contain the explanation of another error.", "anchors": ["src/parse.rs:Error", "src/expand/mod.rs:Error", "src/expand/mod.rs:ParameterError"]}
{"id": "C49", "title": "Following the advice of the messages repairs the expression", "statement": "For every string that does not end with a backslash escaping nothing: as long as Expression::parse rejects it, the text quoted by the error contains a character the message proposes to escape and which can be escaped; each such repair reduces the number of unescaped reserved characters by one; hence, in whatever order the advice is followed, an accepted expression is reached after finitely many repairs. (The exception is necessary: for `ab\\` the message is about `ab`, so the advice cannot be followed.)", "quantifier": "every input string, every sequence of repairs", "why_tests_cant": "Unbounded sequences of edits of arbitrary strings.", "anchors": ["src/parse.rs:Error", "src/parse.rs:expression", "src/ast.rs:Expression::parse"]}
{"id": "C50", "title": "Concatenation", "statement": "If two strings are accepted, so is one written directly behind the other; and unless an alternation stands at the seam, the regex of the whole matches exactly the texts of the first followed by texts of the second, its captures being those of the first followed by those of the second (moved behind, their groups renumbered). (With an alternation at the seam it may be otherwise: `a/b` followed by `c`.) With custom parameters the same, if the three regexes exist and the custom regexes have no anchors; with the regex `x$` for `a`, `{a}y` does not match `xy`.", "quantifier": "every pair of accepted expressions with built-in or valid custom parameters, every subject, every match", "why_tests_cant": "A law about all pairs of expressions and the infinite languages of their regexes; texts merge at the seam.", "anchors": ["src/ast.rs:Expression::parse", "src/expand/mod.rs:Expression::regex"]}
{"id": "C51", "title": "An optional means with or without", "statement": "Replacing an optional of an accepted expression by its text, or deleting it, gives accepted expressions; the original matches exactly what one of the two matches, with the same captures. Inside an alternation too, provided the text of the optional has no unescaped space.", "quantifier": "every expression with built-in or valid custom parameters that has a regex, every optional in it, every subject, every match", "why_tests_cant": "A law about infinite languages; the modified expressions parse into differently structured ASTs.", "anchors": ["src/ast.rs:Expression::parse", "src/expand/mod.rs:Expression::regex", "src/parse.rs:optional"]}
{"id": "C52", "title": "An alternation means any of its branches", "statement": "Replacing an alternation of an accepted expression by one of its branches gives an accepted expression; the original matches exactly what one of these matches, with the same captures. Hence order and repetition of the branches do not matter for what is matched.", "quantifier": "every expression with built-in or valid custom parameters that has a regex, every alternation in it, every subject, every match", "why_tests_cant": "A law about infinite languages; the modified expressions parse into differently structured ASTs.", "anchors": ["src/ast.rs:Expression::parse", "src/expand/mod.rs:Expression::regex", "src/parse.rs:alternation"]}
{"id": "C53", "title": "When two expressions have the same regex", "statement": "The regexes of two accepted expressions are the same text if and only if the expressions are spelled alike: atom by atom (characters with escapes removed, optionals, alternations, parameters) they agree. Hence expressions with the same regex differ at most in escapes; escapes that decide about structure do matter: `a\\/b` and `a/b` have different regexes.", "quantifier": "every pair of accepted expressions with built-in parameters", "why_tests_cant": "Injectivity over all pairs of expressions: no finite set of pairs shows it.", "anchors": ["src/expand/mod.rs:Expression::regex", "src/expand/mod.rs:EscapeForRegex", "src/ast.rs:Expression::parse"]}
{"id": "C54", "title": "The nesting of regexes stays bounded", "statement": "The regex of every accepted expression with built-in parameters is nested at most 12 deep, hence within the nest limit 250 of the regex parser, however long the expression is. With custom parameters whose regexes have no capture group (outside repetitions) it is at least two levels deeper than each of these, and exactly so for the deepest if that is at least 10 deep; so it stays within the limit exactly if they are at most 248 deep. Groups, repetitions, concatenations, alternations, brackets of classes, unions of several items and set operations count for one level each, with the flag `i` and without. For custom regexes with capture groups the same holds of their printed form with the groups renamed. That has no bound in terms of the regex as given: `(a(a(...)))` with n+1 groups is 2n+1 deep, its expression 3n+3 (at least 12); with 84 groups it is valid but its expression is refused.", "quantifier": "every accepted expression, every provider", "why_tests_cant": "Expressions of unbounded length and providers with arbitrarily deep regexes.", "anchors": ["src/expand/mod.rs:Expression::regex", "src/expand/mod.rs:Expression::regex_with_parameters", "src/expand/parameters.rs:regex_hir"]}
{"id": "C55", "title": "Syntax trees built by hand", "statement": "The AST types are public. The expansion of any AST, whether or not some source text has it, comes to an end without panicking; if all its parameters are built in, its pattern is a valid regex if and only if no two `{string}` parameters share an id, and it then matches element by element (an alternation without branches matches the empty text); otherwise the leftmost unknown parameter is reported.", "quantifier": "every AST, every subject, every match", "why_tests_cant": "ASTs are arbitrary trees, including those the parser never returns; tests only expand parsed ones.", "anchors": ["src/expand/mod.rs:IntoRegexCharIter", "src/ast.rs:Expression", "src/ast.rs:Alternation"]}
{"id": "C56", "title": "Documented failures", "statement": "The documentation of each public parser lists the irrecoverable failures it may return. Each list is accurate: no input makes the parser fail with a kind of error that is not listed, and every listed kind is the failure of some input. (False of the code for parameter: `{\\` makes it fail with EscapedEndOfLine, which is not listed. With it added, the list is accurate.)", "quantifier": "every public parser, every input, every listed kind", "why_tests_cant": "That nothing else is ever returned is a statement about all inputs.", "anchors": ["src/parse.rs:parameter", "src/parse.rs:optional", "src/parse.rs:alternative", "src/parse.rs:alternation", "src/parse.rs:single_expression", "src/parse.rs:expression"]}
{"id": "C57", "title": "Captures can be attributed to parameters by the names of the groups", "statement": "As documented for WithCustom and Provider::Value: going through the groups of the compiled regex from left to right, giving each parameter in turn the next groups named `__{its id}_...`, or, if there are none, the next group, which has no name, uses up all groups and gives every parameter exactly its own groups, so its own captures; the same custom parameter may be used any number of times. (False of the code for custom regexes with a group inside a repetition: for `{x} {int}` with `(?:(a)b)+` for `x` there are three groups without a name.)", "quantifier": "every accepted expression, every provider of valid regexes without groups inside repetitions, every subject, every match", "why_tests_cant": "Any number of parameters with any number of groups; names must not be confused whatever the ids.", "anchors": ["src/expand/parameters.rs:WithCustom", "src/expand/parameters.rs:Provider::Value", "src/expand/parameters.rs:regex_hir::rename_capture_groups", "src/expand/mod.rs:IntoRegexCharIter for Parameter"]}
{"id": "C58", "title": "Machine integers suffice", "statement": "With checked machine arithmetic (usize offsets and parameter counts, u32 lines) Expression::parse returns what it would return with unbounded integers, and does not panic, on every string below 4 GiB and on every longer one with fewer than 2^32-1 newlines; on 32-bit targets on every string. The same holds for each public parser on any part of a text and any parameter count below usize::MAX. The bounds are sharp: 2^32-1 newlines overflow the line counter, a count of usize::MAX overflows in parameter, and 2^32 newlines skipped at once leave the line number unchanged.", "quantifier": "every string and every public parser, every target width", "why_tests_cant": "Strings of gigabytes; that no intermediate sum overflows is a statement about all of them.", "anchors": ["src/parse.rs:expression", "src/parse.rs:parameter", "src/ast.rs:Expression::parse", "src/ast.rs:Alternation::span_len", "src/ast.rs:Spanned"]}
{"id": "C59", "title": "The work of parsing", "statement": "The number of bytes Expression::parse looks at (including re-reading after backtracking, look-ahead for error messages and counting newlines) is at most proportional to the length of the text times one plus the number of its `(`: linear without optionals, never more than quadratic. Quadratic work does occur: for `(a)(a)(a)...` every optional makes the parser read all the rest once more in search of an alternation.", "quantifier": "every string; the lower bound for every length", "why_tests_cant": "Growth over all lengths: timing finitely many inputs shows no bound.", "anchors": ["src/parse.rs:expression", "src/parse.rs:single_expression", "src/parse.rs:alternation", "src/parse.rs:parameter", "src/parse.rs:optional", "src/combinator.rs:escaped0"]}
{"id": "C60", "title": "When a provider is asked, and what the iterators yield", "statement": "Whatever state a Provider keeps (counters, logs, answers that change), Expression::regex_with_parameters asks it exactly once for each parameter, from left to right, uses the answer given then, stops at the first parameter that fails and asks for nothing if the expression does not parse. Stepping the iterator of with_parameters(..).into_regex_char_iter() by hand, the lookup happens in the call of next that returns the first item of the parameter, and creating the iterator asks for nothing. The iterators of all AST elements yield the pattern of the element character by character, go on after an error, and return None forever after their end.", "quantifier": "every AST (parsed or built by hand), every provider with any state, every sequence of calls of next", "why_tests_cant": "Laziness and fusedness are statements about all sequences of calls; a provider may be any stateful object.", "anchors": ["src/expand/mod.rs:IntoRegexCharIter", "src/expand/mod.rs:SkipLast", "src/expand/mod.rs:Expression::regex_with_parameters", "src/expand/parameters.rs:WithCustom", "src/expand/parameters.rs:Provider::get"]}
{"id": "C61", "title": "Expressions can be recognised in one pass with constant memory", "statement": "The texts accepted by Expression::parse form a regular language: a finite automaton with sixteen states, which reads the text once from left to right without look-ahead, accepts exactly the texts that parse. No automaton with fewer states does. (So accepting needs no unbounded memory although the parsers look ahead and read again, and equivalent scanners, for instance in editors, can be checked against it.)", "quantifier": "every source text; every finite automaton", "why_tests_cant": "Equality of an infinite language with the language of an automaton, and a lower bound over all automata.", "anchors": ["src/parse.rs:expression", "src/parse.rs:single_expression", "src/parse.rs:alternation", "src/parse.rs:optional", "src/parse.rs:parameter", "README.md:Grammar"]}
{"id": "C62", "title": "Which unfinished texts can still be completed", "statement": "While an expression is being typed, Expression::parse reports errors. Errors about nested or empty optionals, nested parameters, alternations in optionals, misplaced reserved characters, a backslash before a character which is not reserved, and about alternations which end before the end of the text are final: whatever is appended, the text never parses. A missing closing brace can always be supplied. If a text can be completed at all then at most three characters suffice. In texts without a slash the errors are exact: any other error means that the text can be completed.", "quantifier": "every source text and every continuation", "why_tests_cant": "Quantifies over all continuations of all texts.", "anchors": ["src/parse.rs:Error", "src/parse.rs:expression", "src/parse.rs:alternation", "src/parse.rs:optional", "src/parse.rs:parameter", "src/ast.rs:Expression::parse"]}
{"id": "C63", "title": "The parsers do the same on any type of input", "statement": "The public parsers (parameter, optional, alternative, alternation, single_expression, expression) are generic in the type of the input. On any type whose operations behave like those of spans they build the same tree with the same ids from corresponding pieces of the input, or return the same error at the corresponding place. This holds for Spanned, for plain &str at any address, and for spans with extra data of the user, which is attached to every piece of the result and of the error.", "quantifier": "every type of input and relation to spans respected by its operations; every input; every start of the indexer", "why_tests_cant": "Quantifies over types; tests run the parsers on Spanned only.", "anchors": ["src/parse.rs:parameter", "src/parse.rs:optional", "src/parse.rs:alternative", "src/parse.rs:alternation", "src/parse.rs:single_expression", "src/parse.rs:expression", "src/combinator.rs:escaped0", "src/combinator.rs:map_err", "src/ast.rs:Spanned"]}
{"id": "C64", "title": "Values that Rust prints are matched and can be read back", "statement": "{int} matches and captures every integer as Rust prints it, and {float} every float (with inf, NaN and exponents). Conversely std reads every ASCII text they match: integers unless they are out of the range of the type, floats always. Of the texts std reads, {int} misses those with a plus sign and {float} other spellings of infinity and NaN. Every text can be given to {string} between either quotes, with backslashes before quotes and backslashes; the capture is the text with these backslashes. Digits outside ASCII are matched too, and std does not read them.", "quantifier": "every integer, every printed float, every text; every interpretation of \\d which is 0 to 9 on ASCII", "why_tests_cant": "All values of unbounded domains.", "anchors": ["src/expand/mod.rs:Parameter::into_regex_char_iter", "src/expand/mod.rs:Expression::regex"]}
{"id": "C65", "title": "Arguments can be read back", "statement": "If after every parameter, optional and alternation comes something whose first character cannot occur in it (for {string} nothing is needed; what comes after the last parameter does not matter), for instance if they are followed by blanks, then a text matches in one way only: the captures are the arguments the text was made from, whatever search is used.", "quantifier": "every source text of this kind, every text it matches, every interpretation of the Perl classes", "why_tests_cant": "Uniqueness over all texts and all ways of splitting them.", "anchors": ["src/expand/mod.rs:Expression::regex", "src/expand/mod.rs:Parameter::into_regex_char_iter", "src/expand/mod.rs:Alternation::into_regex_char_iter", "src/expand/mod.rs:Optional::into_regex_char_iter"]}
{"id": "C66", "title": "single_expression is fully specified", "statement": "For every input and value of the indexer the outcome of parse::single_expression is determined: alternation, optional, parameter, text, whitespace (with its span, the rest and the new indexer), the end of input (recoverable), or which failure. An optional or text is returned alone only if the texts and optionals it starts with are not followed by a slash.", "quantifier": "every span and every value of the indexer", "why_tests_cant": "All inputs; the outcome depends on a prefix of unbounded length.", "anchors": ["src/parse.rs:single_expression", "src/parse.rs:alternation", "src/parse.rs:parameter"]}
{"id": "C67", "title": "What the parsers depend on", "statement": "The result of parse::optional and parse::parameter depends only on the text they consume, that of alternative also on the next character, that of alternation and single_expression on whether the rest ends the element: replacing the rest by any other one that does gives the same result. Otherwise single_expression looks arbitrarily far ahead: however many optionals follow a text, a slash after them turns it into an alternation or a failure.", "quantifier": "every consumed text, every rest", "why_tests_cant": "Independence of all continuations; a lookahead without bound.", "anchors": ["src/parse.rs:optional", "src/parse.rs:parameter", "src/parse.rs:alternative", "src/parse.rs:alternation", "src/parse.rs:single_expression"]}
{"id": "C68", "title": "Which texts an expression matches at all", "statement": "Every expression with built-in parameters matches some text; the length of the shortest one is the sum over its elements (nothing for an optional and {}, two for {string}, one for the other parameters, the shortest branch for an alternation). It matches the empty text exactly if it consists of optionals and {}. Without parameters it matches exactly the texts of a finite list; with one it matches arbitrarily long texts.", "quantifier": "every source text; every interpretation of the Perl classes in which 0 is a digit and no blank", "why_tests_cant": "All expressions and all texts.", "anchors": ["src/expand/mod.rs:Expression::regex", "src/expand/mod.rs:Parameter::into_regex_char_iter"]}
{"id": "C69", "title": "Widening a parameter", "statement": "Every text of {int} is one of {float}, every one of these one of {word}, every one of these one of {}; no other inclusion holds, and none involving {string} (which may contain newlines). Replacing a parameter of an expression by one of a wider type gives an expression which matches everything the first one did.", "quantifier": "every source text, every parameter of it, every text matched; every interpretation of the Perl classes that is the usual one on ASCII and has no blank digits", "why_tests_cant": "Inclusion of infinite languages in all contexts.", "anchors": ["src/expand/mod.rs:Parameter::into_regex_char_iter", "src/expand/mod.rs:Expression::regex", "README.md:Parameter types"]}
{"id": "C70", "title": "Size of the pattern, work of the iterators", "statement": "The pattern of an expression with built-in parameters has at most ten times as many characters as the expression, plus two, plus the decimal digits of the ids in the group names of {string} parameters (at most 2k for each parameter if there are at most 10^k). Reading the printed expression of a custom parameter with groups, of n characters, goes past n(n+1)/2 + n characters, not n: the work grows with the square.", "quantifier": "every source text with built-in parameters; every text of a custom parameter", "why_tests_cant": "The bounds concern all lengths; a test measures some.", "anchors": ["src/expand/mod.rs:Expression::regex", "src/expand/mod.rs:OwnedChars"]}
{"id": "C71", "title": "An expression as a custom parameter", "statement": "If every custom parameter of an expression has as its regex the regex of another expression (with built-in parameters) without the anchors ^ and $, then the regex exists, matches exactly the texts that split into one piece per element, a custom parameter's piece being a text of its expression, captured as its expression captures it (as a whole if that has no parameters), and the group names tell which captures belong to which parameter. Replacing such a parameter by its expression, where no alternation stands at the seams, changes no matches, and no captures if that expression has parameters. With the anchors left in, the regex may match nothing.", "quantifier": "every source text and every provider of such parameters; all subject texts", "why_tests_cant": "Tests try some pairs of expressions; the renaming of groups and the reparsing of a generated regex must work for every expression.", "anchors": ["src/expand/parameters.rs:WithCustom", "src/expand/mod.rs:Expression::regex_with_parameters"]}
{"id": "C72", "title": "Custom parameters keep the preferences of their regexes", "statement": "If an expression with custom parameters matches a text in several ways, the match returned is the most preferred one, where at the first element in which two ways differ a custom parameter prefers what its regex by itself tries first at this place, including what its groups capture; all other elements prefer as in C46. The order is strict. In particular, renaming the groups of a custom regex, printing and parsing it again leaves it as it was. This holds for custom regexes that are regular in the sense of C45 and, if they have groups outside repetitions, have no lazy exact count. (With one it is false: `(?:a|ab){2}?(c?)|(?:a|ab){2}(bc?)` by itself captures `c` from `aabc`, the parameter captures `bc`.)", "quantifier": "every accepted expression, every provider of such regexes without duplicate group names, every subject, every other way of matching", "why_tests_cant": "Greediness and branch order of arbitrary user regexes must survive a rewrite of their syntax tree, for all subjects.", "anchors": ["src/expand/parameters.rs:WithCustomParameters", "src/expand/parameters.rs:ParameterIter", "src/expand/parameters.rs:regex_hir::rename_capture_groups", "src/expand/mod.rs:Expression::regex_with_parameters"]}
{"id": "C73", "title": "A search finds a match exactly if there is one", "statement": "For every compiled expression, with or without custom parameters, searching a text with the compiled regex yields nothing exactly if the text has no match in the sense of the meaning of the regex (the sense of C28 and C45); what it yields is a match, no other match begins further left, and what is reported for the groups is what some way to match in this place captures. So the statements about which texts an expression matches are statements about what `is_match`, `find` and `captures` do.", "quantifier": "every accepted expression, every provider (including malformed and irregular regexes that happen to be accepted), every subject", "why_tests_cant": "The regex is simplified before it is searched (prefixes lifted out of alternations, characters joined to classes, repetitions of empty matches cut short); that no simplification loses or adds a match has to hold for all patterns and subjects.", "anchors": ["src/expand/mod.rs:Expression::regex", "src/expand/mod.rs:Expression::regex_with_parameters", "src/expand/parameters.rs:WithCustomParameters"]}
{"id": "C74", "title": "Valid custom regexes cannot break an expression", "statement": "Whatever valid regexes without the inline flag `x` the provider gives for custom parameters: if the expression is accepted, it matches only whole texts, and exactly those that split into one piece per element, where every parameter has a meaning of its own that depends neither on the expression nor on the other parameters (and is the expected one of C45 for built-in parameters and regular regexes). If the custom regexes have no named groups, the expression is accepted. (For regexes that are not valid this is false: with `)|x\\` for `p`, `{p}` is accepted and found in every text.)", "quantifier": "every parsed expression, every provider whose regexes are valid by themselves (within the modelled syntax), every subject", "why_tests_cant": "Custom regexes are inserted as text between a beginning and an end; that none of them can close a group early, capture the anchors in an alternation, or collide with another one has to hold for all of them at once.", "anchors": ["src/expand/parameters.rs:WithCustomParameters", "src/expand/parameters.rs:ParameterIter", "src/expand/parameters.rs:regex_hir::rename_capture_groups", "src/expand/mod.rs:Expression::regex_with_parameters"]}
{"id": "C75", "title": "Inline flags in custom regexes", "statement": "The usual ways to set flags in the regex of a custom parameter work as expected and stay where they are: `(?i)` before a text without special characters matches this text in any case, except for a part in `(?-i:` `)`; `(?i)[^` text `]` matches a character that differs from those of the text not only in case; `(?s).*` matches every text including line breaks; `(?m)^` before and `$` after a text match it as a line of its own, `(?m)\\A` before and `\\z` after only as the whole; each captures what it matches. The expression is accepted, and all its other elements and parameters match as they do without it.", "quantifier": "every accepted expression, every provider of such regexes for some of its parameters while the others are built in, every text in these regexes, every subject", "why_tests_cant": "Flags are read by the parser of another crate from the middle of a pattern assembled from iterators; that none reaches beyond its parameter has to hold for all expressions around it.", "anchors": ["src/expand/parameters.rs:WithCustomParameters", "src/expand/parameters.rs:ParameterIter", "src/expand/mod.rs:Expression::regex_with_parameters"]}
{"id": "C76", "title": "The syntax of custom regexes keeps its meaning inside an expression", "statement": "The regex of a custom parameter may be built from characters, escapes (`\\.`, `\\t`, `\\x41`, `\\u{263A}`), the shorthands `\\d`, `\\s`, `\\w` and their complements, general categories (`\\pL`, `\\p{Lu}`, `\\P{Lu}`), the dot, classes (with ranges, ASCII classes such as `[:alpha:]`, nested classes and the operations `&&`, `--`, `~~`), repetitions (`?`, `*`, `+`, `{2,3}`, greedy or lazy), branches and a leading `(?i)`. The parameter then matches exactly the texts that the documentation of regexes gives these, captures the text matched, and leaves everything around it as it is; the expression is accepted. Spaces around the numbers of a count (`{ 2 , 3 }`) change nothing.", "quantifier": "every accepted expression, every provider of such regexes for some of its parameters while the others are built in, every subject", "why_tests_cant": "Combinations of syntax, surrounding elements and subjects are unbounded.", "anchors": ["src/expand/parameters.rs:WithCustomParameters", "src/expand/parameters.rs:ParameterIter", "src/expand/mod.rs:Expression::regex_with_parameters"]}
{"id": "C77", "title": "Groups in custom regexes, named or not", "statement": "The regex of a custom parameter may consist of parts, some in parentheses: `(...)`, `(?P<name>...)`, `(?<name>...)`, `(?:...)`. A name begins with a letter or underscore and goes on with letters, digits, underscores, dots and brackets; no name occurs twice in one regex. Such expressions are accepted, even if several parameters use the same names; the parameter matches one part after the other, and reports what each of its capturing groups matched, in order, or all of it if it has none; the groups are named `__{id of the parameter}_0`, `__{id}_1`, ..., and the only group of a parameter without groups has no name. An expression with a parameter whose regex begins its first group with a name that is not of this form, or with look-around (`(?=`, `(?!`, `(?<=`, `(?<!`), is refused.", "quantifier": "every accepted expression, every provider of such regexes for some of its parameters while the others are built in, every subject; for the refusal, every ASCII name without `>`", "why_tests_cant": "Names, groups and surrounding elements combine without bound.", "anchors": ["src/expand/parameters.rs:WithCustomParameters", "src/expand/parameters.rs:ParameterIter", "src/expand/mod.rs:Expression::regex_with_parameters"]}
{"id": "C78", "title": "White space and comments in custom regexes", "statement": "With the inline flag `x` in front, white space and `#` comments in a custom regex are ignored. A regex of plain characters, white space and comments is valid and matches its plain characters. If its last comment is ended by a newline, an expression with such a parameter compiles to the same regex as with the plain characters (after an empty group) instead, if it compiles at all. If not, the expression is refused, because the comment swallows the parenthesis that the expansion puts after it: this holds if nothing to the right of the parameter brings a newline in. Admitting the flag changes nothing for what was accepted without it, nor for what is not a regex without it.", "quantifier": "every such regex, every accepted expression with a parameter of it, whose other parameters are built in or have valid custom regexes (to its right: built in, or without opening parenthesis and newline)", "why_tests_cant": "White space and comments of any length combine with any surrounding elements.", "anchors": ["src/expand/parameters.rs:WithCustomParameters", "src/expand/parameters.rs:ParameterIter", "src/expand/mod.rs:Expression::regex_with_parameters"]}
{"id": "C79", "title": "Arguments of custom parameters can be read back", "statement": "With custom parameters, too: if after every parameter, optional and alternation comes nothing, or something whose first character cannot occur in it, or if no text of it begins with another one (all texts of the regex have the same length, or it is {string}), then every text that matches divides into arguments in one way only; if the custom regexes have no groups of their own, the match as a whole is unique and it is what a search reports.", "quantifier": "every source text of this kind, every provider of regular regexes, every text", "why_tests_cant": "Uniqueness over all texts, all ways of splitting them and all regexes.", "anchors": ["src/expand/parameters.rs:WithCustom<Parameter>", "src/expand/mod.rs:Expression::regex_with_parameters"]}
{"id": "C80", "title": "Wider custom regexes match more", "statement": "If one provider gives every parameter of an expression a regex that matches whatever the regex from another provider matches in the same place, then the expression matches with the one whatever it matches with the other; equivalent regexes give equivalent expressions; a parameter that never matches makes the expression match nothing.", "quantifier": "every source text, every pair of providers of regular regexes, every text", "why_tests_cant": "Inclusion of infinite languages for all regexes in all contexts.", "anchors": ["src/expand/parameters.rs:WithCustom<Parameter>", "src/expand/parameters.rs:Provider", "src/expand/mod.rs:Expression::regex_with_parameters"]}
{"id": "C81", "title": "Formatted custom regexes", "statement": "With the inline flag `x` in front, a custom regex of any parts (single characters, escapes, classes, repetition operators, groups, alternations, anchors) with white space and comments between them is read as its parts, and gives the same syntax tree and the same translation (up to an empty group in front); it has the same groups as the parts without the flag and finds the same match with the same captures in every text. In an expression: if it has a capture group outside of repetitions, it is printed anew, and the expression is the same as with the parts instead, even if its last comment has not ended; otherwise the expression compiles to the same regex as with the parts (after an empty group) if the last comment has ended (and, if it has no groups at all, finds the same matches with the same captures as with the parts themselves), and is refused if it has not and nothing to the right brings a newline in.", "quantifier": "every list of valid parts that makes a valid regex, every way of putting white space and comments between them, every accepted expression with a parameter of it", "why_tests_cant": "All layouts of all regexes in all contexts; where the parser skips white space depends on the token before and the group around.", "anchors": ["src/expand/parameters.rs:WithCustom<Parameter>", "src/expand/parameters.rs:Provider", "src/expand/mod.rs:Expression::regex_with_parameters"]}
{"id": "C82", "title": "The texts of an expression with custom parameters", "statement": "An expression matches nothing but texts of its elements, one after the other, where the texts of a parameter are those its regex matches somewhere. If no custom regex looks around (anchors, word boundaries), it matches all of these. Then it matches some text exactly if each of its parameters does, and the length of its shortest match is the sum of those of its elements. Without this condition the sum is still a lower bound, and for a custom regex such a bound can be read off its structure.", "quantifier": "every accepted expression whose parameters are built in or have valid custom regexes, with distinct group names, and every text", "why_tests_cant": "All texts, all custom regexes; whether a step can match at all cannot be seen by trying texts.", "anchors": ["src/expand/mod.rs:Expression::regex_with_parameters", "src/expand/parameters.rs:WithCustom<Parameter>", "src/expand/mod.rs:IntoRegexCharIter"]}
{"id": "C83", "title": "Steps that cannot collide", "statement": "Two expressions whose literal beginnings differ (neither is a prefix of the other), or whose literal ends differ (neither is a suffix of the other), never match the same text, whatever their custom regexes are. A literal expression collides with another one exactly if that one matches its text; with another literal one exactly if both say the same once escapes are removed. Two expressions without parameters collide exactly if the finite lists of their texts meet.", "quantifier": "every pair of accepted expressions with their own providers, whose parameters are built in or have valid custom regexes with distinct group names, and every text", "why_tests_cant": "No number of tried texts excludes that two steps match the same one.", "anchors": ["src/expand/mod.rs:Expression::regex_with_parameters", "src/expand/mod.rs:Expression::regex"]}
{"id": "C84", "title": "Steps that differ in one place", "statement": "Two expressions that are the same but for one element, between literal texts, match a common text exactly if these elements do. For a single built-in parameter: steps that differ in its type collide, unless one is `{string}` and the other `{int}` or `{float}`; then they never do. More generally, expressions whose elements have common texts one by one collide; after the same literal beginning (or before the same literal end), elements none of whose texts is a prefix (suffix) of one of the other keep expressions apart, whatever follows (precedes).", "quantifier": "every pair of accepted expressions with their own providers, whose parameters are built in or have valid custom regexes with distinct group names (for collisions: without look-arounds), and every text", "why_tests_cant": "Both directions quantify over all texts; that steps never collide cannot be tested, that they may is found by tests only if one hits a common text.", "anchors": ["src/expand/mod.rs:Expression::regex_with_parameters", "src/expand/mod.rs:Expression::regex", "src/expand/mod.rs:IntoRegexCharIter"]}
{"id": "C85", "title": "The longest text of a step", "statement": "No text matched by an expression is longer than its literal parts with all optionals, the longest branch of each alternation, and the longest text of each parameter; if no custom regex looks around, that length is reached. A bound for a custom regex can be read off its structure. The lengths of the matches are bounded if those of the texts of all parameters are, and only then if no custom regex looks around and every parameter has a text; so an expression with a built-in parameter matches texts of any length.", "quantifier": "all expressions, custom parameters with regexes of the fragment, texts and character tables", "why_tests_cant": "the bound speaks about all texts that match; tests try some", "anchors": ["src/expand/mod.rs:Expression::regex_with_parameters", "src/expand/mod.rs:Expression::regex", "src/expand/parameters.rs:IntoRegexCharIter"]}
