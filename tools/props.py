import json
P=[]
def p(id,title,statement,quant,why,anchors): P.append(dict(id=id,title=title,statement=statement,quantifier=quant,why_tests_cant=why,anchors=anchors))
PR="src/parse.rs"; AST="src/ast.rs"; CO="src/combinator.rs"; EX="src/expand/mod.rs"; PA="src/expand/parameters.rs"
p("C01","Parsing is lossless","If Expression::parse(s) succeeds, then writing out the returned AST from left to right (text and whitespace verbatim, `{name}` for parameters, `(text)` for optionals, branches joined by `/` for alternations) reproduces s exactly, character for character.","every input string","Unit tests compare a handful of ASTs; dropping or duplicating a character can occur at any escape, multi-byte character or boundary.",[PR+":expression",AST+":Expression::parse"])
p("C02","Every span of the AST is correctly located","Every LocatedSpan stored in the AST returned by Expression::parse(s) is a sub-slice of s: its fragment occurs in s at exactly its byte offset, and its line is one plus the number of newlines before that offset.","every input string and every span in its AST","Offsets are byte offsets over UTF-8 of arbitrary text; tests only check ASCII and one emoji.",[PR+":expression",AST+":Spanned"])
p("C03","Parameter ids are 0,1,2,... in source order","The ids of the Parameters in the AST returned by Expression::parse(s), read from left to right, are exactly 0,1,...,n-1 where n is the number of parameters.","every input string","Only sampled with two parameters; backtracking between alternatives could burn ids on other inputs.",[PR+":parameter",PR+":single_expression",PR+":expression"])
p("C04","Everything the documented grammar derives is accepted","Every string derivable from `expression` in the EBNF grammar of README.md is accepted by Expression::parse.","every string in an infinite context-free language","The language is infinite and the grammar ambiguous; greedy parsing could reject a derivable string.",["README.md#grammar",PR+":expression"])
p("C05","Exactly the relaxed documented grammar is accepted","Expression::parse accepts s iff s is derivable in the README grammar relaxed in two points: any of `{}()\\/ ` may be escaped anywhere, and one branch of an alternation is any non-empty sequence of texts and optionals with at least one text. The relaxation is real: some accepted string (e.g. `\\)`) is not derivable in the README grammar.","every input string, both directions","Rejection of every non-member cannot be sampled.",["README.md#grammar",PR+":expression",PR+":alternation"])
p("C06","Printing and re-parsing an AST is the identity","For every canonical AST (one satisfying the documented element and adjacency rules) printing it gives a string which Expression::parse maps back to that same AST; conversely every AST returned is canonical. So parse and print are mutually inverse bijections.","every canonical AST and every input string","Requires quantifying over all trees.",[PR+":expression",AST+":Expression"])
p("C07","Parsing is all-or-nothing with specific errors","Expression::parse(s) returns either an AST for the whole of s, or one of the specific documented errors; it never returns Error::Other or Error::Needed, and parse::expression never returns a non-empty rest nor a recoverable error.","every input string","Absence of an error value over all inputs is not testable.",[AST+":TryFrom for Expression",PR+":expression",PR+":Error"])
p("C08","Public parsers never panic and always terminate","parse::{parameter, optional, alternative, alternation, single_expression, expression} and Expression::parse return (do not panic on slicing at non-character boundaries, out-of-range slices or integer underflow, and do not loop for ever) on every input.","every input string (any Unicode) and every indexer value","Fuzzing samples only; a byte slice inside a multi-byte character panics only on specific inputs.",["fuzz/fuzz_targets",PR+":parameter",PR+":optional",PR+":alternation",AST+":Alternation::span_len",CO+":escaped0"])
p("C09","Elements of a parsed AST are well formed","In every AST returned by Expression::parse: Text is non-empty with no unescaped ` `, `(`, `{`, `/`; Whitespaces is non-empty and only spaces; Optional is non-empty with no unescaped `(`, `)`, `{`, `/`; Parameter names have no unescaped `{`, `}`, `(`, `/`; and every backslash in any of them begins a two-character escape of a reserved character.","every input string and every AST element","Needs all inputs.",[PR+":single_expression",PR+":optional",PR+":parameter"])
p("C10","Maximal munch / element adjacency","In every AST returned by Expression::parse no two Texts and no two Whitespaces are adjacent, and an Alternation is never adjacent to a Text, an Optional or another Alternation: it extends to the nearest whitespace, parameter or end of input on both sides.","every input string","A statement about all neighbours in all ASTs.",[PR+":single_expression",PR+":alternation"])
p("C11","Alternations are never degenerate","Every Alternation in a parsed AST has at least two branches, every branch is non-empty, contains at least one Text, has no two adjacent Texts, and its texts/optionals are well formed.","every input string","Needs all inputs.",[PR+":alternation",AST+":Alternation::contains_only_optional"])
p("C12","Error spans point into the source","Every error returned by Expression::parse(s) carries a span that is a non-empty sub-slice of s at exactly its reported byte offset and line.","every rejected input string","Needs all rejected inputs; offsets arise from nested look-ahead parses.",[PR+":Error",PR+":parameter",PR+":optional"])
p("C13","optional(): outcome fully determined by the grammar","parse::optional on any input returns: a recoverable error iff the input does not start with `(`; otherwise, with t the longest well-escaped run of optional text, success iff `)` follows and t is non-empty, and else exactly the documented failure (EmptyOptional, AlternationInOptional, NestedOptional, ParameterInOptional, UnescapedReservedCharacter, UnfinishedOptional) with the documented span.","every input string","A case split over all inputs; tests cover a few strings per error.",[PR+":optional"])
p("C14","parameter(): outcome fully determined by the grammar","parse::parameter on any input returns: a recoverable error iff the input does not start with `{`; otherwise, with t the longest well-escaped run of name text, success iff `}` follows, and else exactly the documented failure (NestedParameter, OptionalInParameter, UnescapedReservedCharacter, UnfinishedParameter) with the documented span.","every input string","As C13.",[PR+":parameter"])
p("C15","Alternation errors","parse::alternation fails with EmptyAlternation on the offending `/` exactly when (no earlier failure occurring) a branch is empty, and with OnlyOptionalInAlternation, whose span is exactly the whole alternation, exactly when it has several non-empty branches one of which has only optionals.","every input string","Span length is computed from the parts, not taken from the consumed input; equality for all inputs is needed.",[PR+":alternation",AST+":Alternation::span_len"])
p("C16","A trailing backslash is reported as EscapedEndOfLine","If the only defect of the text is that it ends with an unescaped backslash, the error is EscapedEndOfLine on that backslash. (False of the code: only when nothing precedes the backslash in the same text run.)","every well-formed text run followed by a trailing backslash","The test only tries the one-character input.",[PR+":escaped_reserved_chars0",CO+":escaped0"])
p("C17","Escaping a non-reserved character is always rejected, at the right place","If a run of text contains a backslash followed by a character which is not one of `{}()\\/ `, the parser fails with EscapedNonReservedCharacter whose span is exactly that backslash and the following (possibly multi-byte) character, for the leftmost such place.","every text context, every prefix, every non-reserved character, every continuation","All Unicode characters and all prefixes.",[PR+":escaped_reserved_chars0",CO+":escaped0"])
p("C18","Indexer discipline","parse::parameter and parse::single_expression increase the given indexer by exactly one iff they return a Parameter (which then carries the previous value as id) and leave it unchanged in every other case, including all errors.","every input string and indexer value","Needs all error paths including nested look-ahead parses.",[PR+":parameter",PR+":single_expression"])
p("C19","Recoverable and irrecoverable errors are separated","A recoverable nom error of any public parser always carries Error::Other, and an irrecoverable Failure never does; Incomplete is never returned. Recoverability is decided as documented (first character / missing `/`).","every input string, every public parser","Combinators such as alt/many1 silently swallow recoverable errors; absence needs all inputs.",[PR+":Error",PR+":parameter",PR+":optional",PR+":alternative",PR+":alternation",PR+":single_expression"])
p("C20","Parsing does not depend on the location","Running a parser on a fragment at another offset/line yields the same AST or error with every offset and line shifted by that amount.","every input fragment and every starting location","Relational property over pairs of runs.",[PR+":expression",AST+":Spanned"])
p("C21","Expressions compose at whitespace","If a and b parse, a does not end and b does not begin with whitespace elements, then a ++ spaces ++ b parses, and its AST is that of a, the whitespace, and that of b with spans shifted and ids renumbered.","every pair of accepted strings and every non-empty run of spaces","Relational property over triples of strings.",[PR+":expression"])
p("C22","EscapeForRegex turns expression text into an equivalent regex literal","For well-escaped text t, the characters produced by EscapeForRegex form a regex whose language is exactly the single string obtained from t by removing escaping backslashes; every regex meta-character in the output is escaped, and nothing else is.","every well-escaped text","All strings; one missed meta-character breaks it.",[EX+":EscapeForRegex"])
p("C23","The regex matches exactly the expression's language","For every expression s with only built-in parameters, Expression::regex(s) matches a string w iff w is a concatenation of: unescaped text, whitespace, optional text or nothing, one branch of each alternation, and a member of the parameter type's language for each parameter.","every accepted expression and every subject string","Two unbounded quantifiers.",[EX+":Expression::regex",EX+":IntoRegexCharIter"])
p("C24","Expansion with known parameters always yields a valid regex","For every s accepted by Expression::parse whose parameters are all built in, the produced pattern is a syntactically valid regex (no unbalanced groups, no dangling repetition, no duplicate group name).","every accepted expression","All expressions.",[EX+":Expression::regex"])
p("C25","The first unknown parameter is reported","Expression::regex(s) fails with ParameterError::NotFound iff s parses and some parameter is neither custom nor built in, and then the reported name is that of the leftmost such parameter, with its location.","every accepted expression","Iterator laziness/order over all expressions.",[EX+":IntoRegexCharIter for Parameter",EX+":Expression::regex"])
p("C26","Capture groups correspond to parameters in order","The produced regex has, in order, for each parameter of the expression: one capture group for int, float, word and anonymous, and two for string; alternations, optionals and text contribute none.","every accepted expression with built-in parameters","All expressions.",[EX+":IntoRegexCharIter"])
p("C27","Captured text is the argument","Whenever the regex matches w, w splits into pieces, one per AST element, such that the captures of each parameter are exactly its piece (for string: the piece without quotes in exactly one of its two groups), and the piece belongs to the parameter type's language.","every accepted expression, every subject, every way of matching","Ambiguous regexes have many match paths.",[EX+":IntoRegexCharIter for Parameter"])
p("C28","Generated group names are unique","No two named groups of the regex produced by Expression::regex(s) have the same name, whatever the number of string parameters.","every accepted expression","Unbounded number of parameters; decimal rendering of ids must be injective.",[EX+":IntoRegexCharIter for Parameter"])
p("C29","Whole-string matching","The produced pattern always begins with `^` and ends with `$`, and both anchor the entire pattern, so a match is always a match of the whole subject.","every accepted expression and subject","An unescaped or unbalanced `|` would break anchoring on one side only for some inputs.",[EX+":IntoRegexCharIter for Expression"])
p("C30","Custom parameters take precedence, others fall back","With a provider of custom parameters, a parameter known to the provider is expanded from the provider's regex even if its name is built in; one unknown to the provider is expanded exactly as without the provider; and all other elements are expanded as without it.","every AST, every provider","All providers.",[PA+":WithCustom",PA+":Provider"])
p("C31","HashMap provider is independent of iteration order","The lookup through a HashMap with pairwise distinct keys returns the value of the unique key equal to the parameter's source text, whatever the iteration order.","every map and every permutation of its entries","HashMap order is randomised per process.",[PA+":Provider for HashMap"])
p("C32","Capture groups of a custom parameter are renamed uniquely","When a custom regex has capture groups, after expansion its capture groups are named __{id}_0, __{id}_1, ... in order of their opening parentheses. (False of the code for groups inside a repetition, which are neither counted nor renamed.)","every regex HIR and every parameter id","All trees.",[PA+":regex_hir::rename_capture_groups",PA+":regex_hir::has_capture_groups"])
p("C33","Every literal string is expressible","For every string w, the expression obtained by prefixing each reserved character of w with a backslash parses, and its regex matches exactly w.","every string","All strings.",[PR+":RESERVED_CHARS",EX+":EscapeForRegex",PR+":expression"])
p("C34","Custom regex without groups is one capture group","A custom parameter whose regex has no opening parenthesis, or no capture group, expands to exactly `(` regex `)`.","every provider value","All values.",[PA+":WithCustom<Parameter>"])
p("C35","Custom parameter names are looked up by raw source text","The provider and the built-in table are consulted with the source text between the braces, with escapes unresolved: `{a\\/b}` is found under `a\\/b` and not under `a/b`.","every parameter name","All names.",[PR+":parameter",PA+":Provider for HashMap"])
p("C36","A malformed custom regex is always rejected","If an expression uses a custom parameter whose regex is invalid, building the regex fails. (False of the code when the invalid regex has no opening parenthesis: two invalid regexes can join into a valid one.)","every expression, every provider","Interaction between several parameters.",[PA+":WithCustom<Parameter>",EX+":Expression::regex_with_parameters"])
p("C37","SkipLast yields everything but the last item","SkipLast over an iterator yields exactly its items without the last one, in order; nothing for an empty iterator.","every finite iterator","All sequences.",[EX+":SkipLast"])
p("C38","OwnedChars yields exactly the characters of its string","OwnedChars over a string yields its characters in order once and then None for ever.","every string and every number of next calls","All strings and call histories.",[EX+":OwnedChars"])
p("C39","Built-in parameter languages","int matches exactly optional `-` and one or more digits; word one or more non-whitespace characters; anonymous any characters but newline; string exactly a double- or single-quoted text in which quotes and backslashes inside are escaped; float exactly optional sign then inf, NaN or decimal digits with optional point and exponent.","every subject string","All strings.",[EX+":IntoRegexCharIter for Parameter"])
p("C40","Recursion depth","The nesting depth of the recursive calls of parse::parameter/optional is at most one more than the number of opening braces and parentheses of the input. (A constant bound is false: `{{{{...` needs one nested call per brace.)","every input string","Unbounded inputs.",[PR+":parameter",PR+":optional"])
p("C41","escaped0 matches the longest well-escaped prefix","combinator::escaped0 with `normal` a take_while or take_while1 parser returns the longest prefix of the input that is a sequence of normal characters and control-character/escapable pairs, and errors iff that prefix is followed by the control character.","every input, every predicate","All strings; mutable loop flags.",[CO+":escaped0"])
p("C42","Branches and optionals do not leak","In the produced pattern every Optional and Alternation is enclosed in its own non-capturing group, so `?` and `|` bind only what the expression says.","every accepted expression","All nestings.",[EX+":IntoRegexCharIter for Alternation",EX+":IntoRegexCharIter for Optional"])
p("C43","Rejections are fully characterised","Expression::parse(s) fails with error e iff s is a well-formed (canonical) sequence of elements followed by a rest at which the next element fails with e according to the documented rules for parameters, optionals, texts and alternations; every s is either accepted or rejected with exactly one such e.","every input string, both directions","Needs every rejected input and every error path.",[PR+":expression",PR+":single_expression",AST+":Expression::parse"])
p("C44","Spans of the AST are disjoint and ordered","The spans stored in the AST of Expression::parse(s), read from left to right, occupy strictly increasing, pairwise disjoint byte ranges of s.","every input string and every pair of spans","A statement about all pairs of spans of all ASTs.",[PR+":expression",AST+":Spanned"])
p("C45","Language and captures with custom parameters","If every parameter of an expression is built in or has a valid custom regex, Expression::regex_with_parameters fails only if two named groups collide, and otherwise the regex matches exactly the subjects that split into one piece per element, where a custom parameter matches exactly what its own regex matches by itself, and its captures are the regex's own (if it has groups) or its whole piece. (False of the code for regexes with a group and nested repetitions such as `(a)(?:b+)?`, which are printed as `(a)b+?`, and for groups that cannot take part in a match, as in `(a)(b){0}`.)","every accepted expression, every provider, every subject","All providers and all subjects.",[PA+":WithCustom",PA+":regex_hir",EX+":Expression::regex_with_parameters"])
p("C46","Which match is returned","If an expression with built-in parameters matches a text in several ways, the match returned by the regex is the most preferred one: at the first element where two ways differ, an optional is rather present than absent, an earlier branch of an alternation is preferred (except that the optionals which all branches begin with are decided before the branch is: `(a)ab/(a)bc{}` on `abcd` yields `d`), and int, word, string and anonymous parameters take rather a longer text, floats rather a number without a point, then a longer mantissa, then a longer exponent. The order is strict, so the returned arguments are determined by expression and text alone. Nothing is returned iff the text is not in the language of the expression.","every accepted expression with built-in parameters, every subject, every other way of matching","Ambiguity is unbounded; tests look at a single captured value.",[EX+":IntoRegexCharIter for Parameter",EX+":Expression::regex"])
p("C47","Parameters take the longest possible text","In the returned match every built-in parameter takes the longest text with which, given what the elements before it match, the rest of the expression can still match. (False of the code for float: `{float}{word}` takes `1` and `.5kg` from `1.5kg`, since the alternative without a point comes first.)","every accepted expression with built-in parameters, every subject","Only visible for expressions in which the parameter is directly followed by something flexible.",[EX+":IntoRegexCharIter for Parameter"])
p("C48","Error messages are located and unambiguous","The message (Display) of every error of Expression::parse consists of a non-empty slice of the source at the location of the error, and an explanation starting on a new line that depends only on the kind of error; two errors with equal messages have the same kind and quote the same text; the explanation spells out the escape sequence it proposes, for every kind that proposes a particular one. The message of an error of Expression::regex tells which stage failed; if a parameter could not be expanded, it quotes the name of the leftmost such parameter as written in the source, and its custom regex if that is the reason.","every rejected input, every pair of errors","Messages of all inputs: a fragment could itself contain the explanation of another error.",[PR+":Error",EX+":Error",EX+":ParameterError"])
p("C49","Following the advice of the messages repairs the expression","For every string that does not end with a backslash escaping nothing: as long as Expression::parse rejects it, the text quoted by the error contains a character the message proposes to escape and which can be escaped; each such repair reduces the number of unescaped reserved characters by one; hence, in whatever order the advice is followed, an accepted expression is reached after finitely many repairs. (The exception is necessary: for `ab\\` the message is about `ab`, so the advice cannot be followed.)","every input string, every sequence of repairs","Unbounded sequences of edits of arbitrary strings.",[PR+":Error",PR+":expression",AST+":Expression::parse"])
p("C50","Concatenation","If two strings are accepted, so is one written directly behind the other; and unless an alternation stands at the seam, the regex of the whole matches exactly the texts of the first followed by texts of the second, its captures being those of the first followed by those of the second (moved behind, their groups renumbered). (With an alternation at the seam it may be otherwise: `a/b` followed by `c`.) With custom parameters the same, if the three regexes exist and the custom regexes have no anchors; with the regex `x$` for `a`, `{a}y` does not match `xy`.","every pair of accepted expressions with built-in or valid custom parameters, every subject, every match","A law about all pairs of expressions and the infinite languages of their regexes; texts merge at the seam.",[AST+":Expression::parse",EX+":Expression::regex"])
p("C51","An optional means with or without","Replacing an optional of an accepted expression by its text, or deleting it, gives accepted expressions; the original matches exactly what one of the two matches, with the same captures. Inside an alternation too, provided the text of the optional has no unescaped space.","every expression with built-in or valid custom parameters that has a regex, every optional in it, every subject, every match","A law about infinite languages; the modified expressions parse into differently structured ASTs.",[AST+":Expression::parse",EX+":Expression::regex",PR+":optional"])
p("C52","An alternation means any of its branches","Replacing an alternation of an accepted expression by one of its branches gives an accepted expression; the original matches exactly what one of these matches, with the same captures. Hence order and repetition of the branches do not matter for what is matched.","every expression with built-in or valid custom parameters that has a regex, every alternation in it, every subject, every match","A law about infinite languages; the modified expressions parse into differently structured ASTs.",[AST+":Expression::parse",EX+":Expression::regex",PR+":alternation"])
p("C53","When two expressions have the same regex","The regexes of two accepted expressions are the same text if and only if the expressions are spelled alike: atom by atom (characters with escapes removed, optionals, alternations, parameters) they agree. Hence expressions with the same regex differ at most in escapes; escapes that decide about structure do matter: `a\\/b` and `a/b` have different regexes.","every pair of accepted expressions with built-in parameters","Injectivity over all pairs of expressions: no finite set of pairs shows it.",[EX+":Expression::regex",EX+":EscapeForRegex",AST+":Expression::parse"])
p("C54","The nesting of regexes stays bounded","The regex of every accepted expression with built-in parameters is nested at most 12 deep, hence within the nest limit 250 of the regex parser, however long the expression is. With custom parameters whose regexes have no capture group (outside repetitions) it is at least two levels deeper than each of these, and exactly so for the deepest if that is at least 10 deep; so it stays within the limit exactly if they are at most 248 deep. Groups, repetitions, concatenations, alternations, brackets of classes, unions of several items and set operations count for one level each, with the flag `i` and without. For custom regexes with capture groups the same holds of their printed form with the groups renamed. That has no bound in terms of the regex as given: `(a(a(...)))` with n+1 groups is 2n+1 deep, its expression 3n+3 (at least 12); with 84 groups it is valid but its expression is refused.","every accepted expression, every provider","Expressions of unbounded length and providers with arbitrarily deep regexes.",[EX+":Expression::regex",EX+":Expression::regex_with_parameters",PA+":regex_hir"])
p("C55","Syntax trees built by hand","The AST types are public. The expansion of any AST, whether or not some source text has it, comes to an end without panicking; if all its parameters are built in, its pattern is a valid regex if and only if no two `{string}` parameters share an id, and it then matches element by element (an alternation without branches matches the empty text); otherwise the leftmost unknown parameter is reported.","every AST, every subject, every match","ASTs are arbitrary trees, including those the parser never returns; tests only expand parsed ones.",[EX+":IntoRegexCharIter",AST+":Expression",AST+":Alternation"])
p("C56","Documented failures","The documentation of each public parser lists the irrecoverable failures it may return. Each list is accurate: no input makes the parser fail with a kind of error that is not listed, and every listed kind is the failure of some input. (False of the code for parameter: `{\\` makes it fail with EscapedEndOfLine, which is not listed. With it added, the list is accurate.)","every public parser, every input, every listed kind","That nothing else is ever returned is a statement about all inputs.",[PR+":parameter",PR+":optional",PR+":alternative",PR+":alternation",PR+":single_expression",PR+":expression"])
p("C57","Captures can be attributed to parameters by the names of the groups","As documented for WithCustom and Provider::Value: going through the groups of the compiled regex from left to right, giving each parameter in turn the next groups named `__{its id}_...`, or, if there are none, the next group, which has no name, uses up all groups and gives every parameter exactly its own groups, so its own captures; the same custom parameter may be used any number of times. (False of the code for custom regexes with a group inside a repetition: for `{x} {int}` with `(?:(a)b)+` for `x` there are three groups without a name.)","every accepted expression, every provider of valid regexes without groups inside repetitions, every subject, every match","Any number of parameters with any number of groups; names must not be confused whatever the ids.",[PA+":WithCustom",PA+":Provider::Value",PA+":regex_hir::rename_capture_groups",EX+":IntoRegexCharIter for Parameter"])
p("C58","Machine integers suffice","With checked machine arithmetic (usize offsets and parameter counts, u32 lines) Expression::parse returns what it would return with unbounded integers, and does not panic, on every string below 4 GiB and on every longer one with fewer than 2^32-1 newlines; on 32-bit targets on every string. The same holds for each public parser on any part of a text and any parameter count below usize::MAX. The bounds are sharp: 2^32-1 newlines overflow the line counter, a count of usize::MAX overflows in parameter, and 2^32 newlines skipped at once leave the line number unchanged.","every string and every public parser, every target width","Strings of gigabytes; that no intermediate sum overflows is a statement about all of them.",[PR+":expression",PR+":parameter",AST+":Expression::parse",AST+":Alternation::span_len",AST+":Spanned"])
p("C59","The work of parsing","The number of bytes Expression::parse looks at (including re-reading after backtracking, look-ahead for error messages and counting newlines) is at most proportional to the length of the text times one plus the number of its `(`: linear without optionals, never more than quadratic. Quadratic work does occur: for `(a)(a)(a)...` every optional makes the parser read all the rest once more in search of an alternation.","every string; the lower bound for every length","Growth over all lengths: timing finitely many inputs shows no bound.",[PR+":expression",PR+":single_expression",PR+":alternation",PR+":parameter",PR+":optional",CO+":escaped0"])
p("C60","When a provider is asked, and what the iterators yield","Whatever state a Provider keeps (counters, logs, answers that change), Expression::regex_with_parameters asks it exactly once for each parameter, from left to right, uses the answer given then, stops at the first parameter that fails and asks for nothing if the expression does not parse. Stepping the iterator of with_parameters(..).into_regex_char_iter() by hand, the lookup happens in the call of next that returns the first item of the parameter, and creating the iterator asks for nothing. The iterators of all AST elements yield the pattern of the element character by character, go on after an error, and return None forever after their end.","every AST (parsed or built by hand), every provider with any state, every sequence of calls of next","Laziness and fusedness are statements about all sequences of calls; a provider may be any stateful object.",[EX+":IntoRegexCharIter",EX+":SkipLast",EX+":Expression::regex_with_parameters",PA+":WithCustom",PA+":Provider::get"])
p("C61","Expressions can be recognised in one pass with constant memory","The texts accepted by Expression::parse form a regular language: a finite automaton with sixteen states, which reads the text once from left to right without look-ahead, accepts exactly the texts that parse. No automaton with fewer states does. (So accepting needs no unbounded memory although the parsers look ahead and read again, and equivalent scanners, for instance in editors, can be checked against it.)","every source text; every finite automaton","Equality of an infinite language with the language of an automaton, and a lower bound over all automata.",[PR+":expression",PR+":single_expression",PR+":alternation",PR+":optional",PR+":parameter","README.md:Grammar"])
p("C62","Which unfinished texts can still be completed","While an expression is being typed, Expression::parse reports errors. Errors about nested or empty optionals, nested parameters, alternations in optionals, misplaced reserved characters, a backslash before a character which is not reserved, and about alternations which end before the end of the text are final: whatever is appended, the text never parses. A missing closing brace can always be supplied. If a text can be completed at all then at most three characters suffice. In texts without a slash the errors are exact: any other error means that the text can be completed.","every source text and every continuation","Quantifies over all continuations of all texts.",[PR+":Error",PR+":expression",PR+":alternation",PR+":optional",PR+":parameter",AST+":Expression::parse"])
p("C63","The parsers do the same on any type of input","The public parsers (parameter, optional, alternative, alternation, single_expression, expression) are generic in the type of the input. On any type whose operations behave like those of spans they build the same tree with the same ids from corresponding pieces of the input, or return the same error at the corresponding place. This holds for Spanned, for plain &str at any address, and for spans with extra data of the user, which is attached to every piece of the result and of the error.","every type of input and relation to spans respected by its operations; every input; every start of the indexer","Quantifies over types; tests run the parsers on Spanned only.",[PR+":parameter",PR+":optional",PR+":alternative",PR+":alternation",PR+":single_expression",PR+":expression",CO+":escaped0",CO+":map_err",AST+":Spanned"])
p("C64","Values that Rust prints are matched and can be read back","{int} matches and captures every integer as Rust prints it, and {float} every float (with inf, NaN and exponents). Conversely std reads every ASCII text they match: integers unless they are out of the range of the type, floats always. Of the texts std reads, {int} misses those with a plus sign and {float} other spellings of infinity and NaN. Every text can be given to {string} between either quotes, with backslashes before quotes and backslashes; the capture is the text with these backslashes. Digits outside ASCII are matched too, and std does not read them.","every integer, every printed float, every text; every interpretation of \\d which is 0 to 9 on ASCII","All values of unbounded domains.",[EX+":Parameter::into_regex_char_iter",EX+":Expression::regex"])
p("C65","Arguments can be read back","If after every parameter, optional and alternation comes something whose first character cannot occur in it (for {string} nothing is needed; what comes after the last parameter does not matter), for instance if they are followed by blanks, then a text matches in one way only: the captures are the arguments the text was made from, whatever search is used.","every source text of this kind, every text it matches, every interpretation of the Perl classes","Uniqueness over all texts and all ways of splitting them.",[EX+":Expression::regex",EX+":Parameter::into_regex_char_iter",EX+":Alternation::into_regex_char_iter",EX+":Optional::into_regex_char_iter"])
p("C66","single_expression is fully specified","For every input and value of the indexer the outcome of parse::single_expression is determined: alternation, optional, parameter, text, whitespace (with its span, the rest and the new indexer), the end of input (recoverable), or which failure. An optional or text is returned alone only if the texts and optionals it starts with are not followed by a slash.","every span and every value of the indexer","All inputs; the outcome depends on a prefix of unbounded length.",[PR+":single_expression",PR+":alternation",PR+":parameter"])
p("C67","What the parsers depend on","The result of parse::optional and parse::parameter depends only on the text they consume, that of alternative also on the next character, that of alternation and single_expression on whether the rest ends the element: replacing the rest by any other one that does gives the same result. Otherwise single_expression looks arbitrarily far ahead: however many optionals follow a text, a slash after them turns it into an alternation or a failure.","every consumed text, every rest","Independence of all continuations; a lookahead without bound.",[PR+":optional",PR+":parameter",PR+":alternative",PR+":alternation",PR+":single_expression"])
p("C68","Which texts an expression matches at all","Every expression with built-in parameters matches some text; the length of the shortest one is the sum over its elements (nothing for an optional and {}, two for {string}, one for the other parameters, the shortest branch for an alternation). It matches the empty text exactly if it consists of optionals and {}. Without parameters it matches exactly the texts of a finite list; with one it matches arbitrarily long texts.","every source text; every interpretation of the Perl classes in which 0 is a digit and no blank","All expressions and all texts.",[EX+":Expression::regex",EX+":Parameter::into_regex_char_iter"])
p("C69","Widening a parameter","Every text of {int} is one of {float}, every one of these one of {word}, every one of these one of {}; no other inclusion holds, and none involving {string} (which may contain newlines). Replacing a parameter of an expression by one of a wider type gives an expression which matches everything the first one did.","every source text, every parameter of it, every text matched; every interpretation of the Perl classes that is the usual one on ASCII and has no blank digits","Inclusion of infinite languages in all contexts.",[EX+":Parameter::into_regex_char_iter",EX+":Expression::regex","README.md:Parameter types"])
p("C70","Size of the pattern, work of the iterators","The pattern of an expression with built-in parameters has at most ten times as many characters as the expression, plus two, plus the decimal digits of the ids in the group names of {string} parameters (at most 2k for each parameter if there are at most 10^k). Reading the printed expression of a custom parameter with groups, of n characters, goes past n(n+1)/2 + n characters, not n: the work grows with the square.","every source text with built-in parameters; every text of a custom parameter","The bounds concern all lengths; a test measures some.",[EX+":Expression::regex",EX+":OwnedChars"])
p("C71","An expression as a custom parameter","If every custom parameter of an expression has as its regex the regex of another expression (with built-in parameters) without the anchors ^ and $, then the regex exists, matches exactly the texts that split into one piece per element, a custom parameter's piece being a text of its expression, captured as its expression captures it (as a whole if that has no parameters), and the group names tell which captures belong to which parameter. Replacing such a parameter by its expression, where no alternation stands at the seams, changes no matches, and no captures if that expression has parameters. With the anchors left in, the regex may match nothing.","every source text and every provider of such parameters; all subject texts","Tests try some pairs of expressions; the renaming of groups and the reparsing of a generated regex must work for every expression.",[PA+":WithCustom",EX+":Expression::regex_with_parameters"])
p("C72","Custom parameters keep the preferences of their regexes","If an expression with custom parameters matches a text in several ways, the match returned is the most preferred one, where at the first element in which two ways differ a custom parameter prefers what its regex by itself tries first at this place, including what its groups capture; all other elements prefer as in C46. The order is strict. In particular, renaming the groups of a custom regex, printing and parsing it again leaves it as it was. This holds for custom regexes that are regular in the sense of C45 and, if they have groups outside repetitions, have no lazy exact count. (With one it is false: `(?:a|ab){2}?(c?)|(?:a|ab){2}(bc?)` by itself captures `c` from `aabc`, the parameter captures `bc`.)","every accepted expression, every provider of such regexes without duplicate group names, every subject, every other way of matching","Greediness and branch order of arbitrary user regexes must survive a rewrite of their syntax tree, for all subjects.",[PA+":WithCustomParameters",PA+":ParameterIter",PA+":regex_hir::rename_capture_groups",EX+":Expression::regex_with_parameters"])
p("C73","A search finds a match exactly if there is one","For every compiled expression, with or without custom parameters, searching a text with the compiled regex yields nothing exactly if the text has no match in the sense of the meaning of the regex (the sense of C28 and C45); what it yields is a match, no other match begins further left, and what is reported for the groups is what some way to match in this place captures. So the statements about which texts an expression matches are statements about what `is_match`, `find` and `captures` do.","every accepted expression, every provider (including malformed and irregular regexes that happen to be accepted), every subject","The regex is simplified before it is searched (prefixes lifted out of alternations, characters joined to classes, repetitions of empty matches cut short); that no simplification loses or adds a match has to hold for all patterns and subjects.",[EX+":Expression::regex",EX+":Expression::regex_with_parameters",PA+":WithCustomParameters"])
p("C74","Valid custom regexes cannot break an expression","Whatever valid regexes without the inline flag `x` the provider gives for custom parameters: if the expression is accepted, it matches only whole texts, and exactly those that split into one piece per element, where every parameter has a meaning of its own that depends neither on the expression nor on the other parameters (and is the expected one of C45 for built-in parameters and regular regexes). If the custom regexes have no named groups, the expression is accepted. (For regexes that are not valid this is false: with `)|x\\` for `p`, `{p}` is accepted and found in every text.)","every parsed expression, every provider whose regexes are valid by themselves (within the modelled syntax), every subject","Custom regexes are inserted as text between a beginning and an end; that none of them can close a group early, capture the anchors in an alternation, or collide with another one has to hold for all of them at once.",[PA+":WithCustomParameters",PA+":ParameterIter",PA+":regex_hir::rename_capture_groups",EX+":Expression::regex_with_parameters"])
p("C75","Inline flags in custom regexes","The usual ways to set flags in the regex of a custom parameter work as expected and stay where they are: `(?i)` before a text without special characters matches this text in any case, except for a part in `(?-i:` `)`; `(?i)[^` text `]` matches a character that differs from those of the text not only in case; `(?s).*` matches every text including line breaks; `(?m)^` before and `$` after a text match it as a line of its own, `(?m)\\A` before and `\\z` after only as the whole; each captures what it matches. The expression is accepted, and all its other elements and parameters match as they do without it.","every accepted expression, every provider of such regexes for some of its parameters while the others are built in, every text in these regexes, every subject","Flags are read by the parser of another crate from the middle of a pattern assembled from iterators; that none reaches beyond its parameter has to hold for all expressions around it.",[PA+":WithCustomParameters",PA+":ParameterIter",EX+":Expression::regex_with_parameters"])
p("C76","The syntax of custom regexes keeps its meaning inside an expression","The regex of a custom parameter may be built from characters, escapes (`\\.`, `\\t`, `\\x41`, `\\u{263A}`), the shorthands `\\d`, `\\s`, `\\w` and their complements, general categories (`\\pL`, `\\p{Lu}`, `\\P{Lu}`), the dot, classes (with ranges, ASCII classes such as `[:alpha:]`, nested classes and the operations `&&`, `--`, `~~`), repetitions (`?`, `*`, `+`, `{2,3}`, greedy or lazy), branches and a leading `(?i)`. The parameter then matches exactly the texts that the documentation of regexes gives these, captures the text matched, and leaves everything around it as it is; the expression is accepted. Spaces around the numbers of a count (`{ 2 , 3 }`) change nothing.","every accepted expression, every provider of such regexes for some of its parameters while the others are built in, every subject","Combinations of syntax, surrounding elements and subjects are unbounded.",[PA+":WithCustomParameters",PA+":ParameterIter",EX+":Expression::regex_with_parameters"])
p("C77","Groups in custom regexes, named or not","The regex of a custom parameter may consist of parts, some in parentheses: `(...)`, `(?P<name>...)`, `(?<name>...)`, `(?:...)`. A name begins with a letter or underscore and goes on with letters, digits, underscores, dots and brackets; no name occurs twice in one regex. Such expressions are accepted, even if several parameters use the same names; the parameter matches one part after the other, and reports what each of its capturing groups matched, in order, or all of it if it has none; the groups are named `__{id of the parameter}_0`, `__{id}_1`, ..., and the only group of a parameter without groups has no name. An expression with a parameter whose regex begins its first group with a name that is not of this form, or with look-around (`(?=`, `(?!`, `(?<=`, `(?<!`), is refused.","every accepted expression, every provider of such regexes for some of its parameters while the others are built in, every subject; for the refusal, every ASCII name without `>`","Names, groups and surrounding elements combine without bound.",[PA+":WithCustomParameters",PA+":ParameterIter",EX+":Expression::regex_with_parameters"])
p("C78","White space and comments in custom regexes","With the inline flag `x` in front, white space and `#` comments in a custom regex are ignored. A regex of plain characters, white space and comments is valid and matches its plain characters. If its last comment is ended by a newline, an expression with such a parameter compiles to the same regex as with the plain characters (after an empty group) instead, if it compiles at all. If not, the expression is refused, because the comment swallows the parenthesis that the expansion puts after it: this holds if nothing to the right of the parameter brings a newline in. Admitting the flag changes nothing for what was accepted without it, nor for what is not a regex without it.","every such regex, every accepted expression with a parameter of it, whose other parameters are built in or have valid custom regexes (to its right: built in, or without opening parenthesis and newline)","White space and comments of any length combine with any surrounding elements.",[PA+":WithCustomParameters",PA+":ParameterIter",EX+":Expression::regex_with_parameters"])
p("C79","Arguments of custom parameters can be read back","With custom parameters, too: if after every parameter, optional and alternation comes nothing, or something whose first character cannot occur in it, or if no text of it begins with another one (all texts of the regex have the same length, or it is {string}), then every text that matches divides into arguments in one way only; if the custom regexes have no groups of their own, the match as a whole is unique and it is what a search reports.","every source text of this kind, every provider of regular regexes, every text","Uniqueness over all texts, all ways of splitting them and all regexes.",[PA+":WithCustom<Parameter>",EX+":Expression::regex_with_parameters"])
p("C80","Wider custom regexes match more","If one provider gives every parameter of an expression a regex that matches whatever the regex from another provider matches in the same place, then the expression matches with the one whatever it matches with the other; equivalent regexes give equivalent expressions; a parameter that never matches makes the expression match nothing.","every source text, every pair of providers of regular regexes, every text","Inclusion of infinite languages for all regexes in all contexts.",[PA+":WithCustom<Parameter>",PA+":Provider",EX+":Expression::regex_with_parameters"])
p("C81","Formatted custom regexes","With the inline flag `x` in front, a custom regex of any parts (single characters, escapes, classes, repetition operators, groups, alternations, anchors) with white space and comments between them is read as its parts, and gives the same syntax tree and the same translation (up to an empty group in front); it has the same groups as the parts without the flag and finds the same match with the same captures in every text. In an expression: if it has a capture group outside of repetitions, it is printed anew, and the expression is the same as with the parts instead, even if its last comment has not ended; otherwise the expression compiles to the same regex as with the parts (after an empty group) if the last comment has ended (and, if it has no groups at all, finds the same matches with the same captures as with the parts themselves), and is refused if it has not and nothing to the right brings a newline in.","every list of valid parts that makes a valid regex, every way of putting white space and comments between them, every accepted expression with a parameter of it","All layouts of all regexes in all contexts; where the parser skips white space depends on the token before and the group around.",[PA+":WithCustom<Parameter>",PA+":Provider",EX+":Expression::regex_with_parameters"])
p("C82","The texts of an expression with custom parameters","An expression matches nothing but texts of its elements, one after the other, where the texts of a parameter are those its regex matches somewhere. If no custom regex looks around (anchors, word boundaries), it matches all of these. Then it matches some text exactly if each of its parameters does, and the length of its shortest match is the sum of those of its elements. Without this condition the sum is still a lower bound, and for a custom regex such a bound can be read off its structure.","every accepted expression whose parameters are built in or have valid custom regexes, with distinct group names, and every text","All texts, all custom regexes; whether a step can match at all cannot be seen by trying texts.",[EX+":Expression::regex_with_parameters",PA+":WithCustom<Parameter>",EX+":IntoRegexCharIter"])
p("C83","Steps that cannot collide","Two expressions whose literal beginnings differ (neither is a prefix of the other), or whose literal ends differ (neither is a suffix of the other), never match the same text, whatever their custom regexes are. A literal expression collides with another one exactly if that one matches its text; with another literal one exactly if both say the same once escapes are removed. Two expressions without parameters collide exactly if the finite lists of their texts meet.","every pair of accepted expressions with their own providers, whose parameters are built in or have valid custom regexes with distinct group names, and every text","No number of tried texts excludes that two steps match the same one.",[EX+":Expression::regex_with_parameters",EX+":Expression::regex"])
p("C84","Steps that differ in one place","Two expressions that are the same but for one element, between literal texts, match a common text exactly if these elements do. For a single built-in parameter: steps that differ in its type collide, unless one is `{string}` and the other `{int}` or `{float}`; then they never do. More generally, expressions whose elements have common texts one by one collide; after the same literal beginning (or before the same literal end), elements none of whose texts is a prefix (suffix) of one of the other keep expressions apart, whatever follows (precedes).","every pair of accepted expressions with their own providers, whose parameters are built in or have valid custom regexes with distinct group names (for collisions: without look-arounds), and every text","Both directions quantify over all texts; that steps never collide cannot be tested, that they may is found by tests only if one hits a common text.",[EX+":Expression::regex_with_parameters",EX+":Expression::regex",EX+":IntoRegexCharIter"])
p("C85","The longest text of a step","No text matched by an expression is longer than its literal parts with all optionals, the longest branch of each alternation, and the longest text of each parameter; if no custom regex looks around, that length is reached. A bound for a custom regex can be read off its structure. The lengths of the matches are bounded if those of the texts of all parameters are, and only then if no custom regex looks around and every parameter has a text; so an expression with a built-in parameter matches texts of any length.","all expressions, custom parameters with regexes of the fragment, texts and character tables","the bound speaks about all texts that match; tests try some",[EX+":Expression::regex_with_parameters",EX+":Expression::regex",PA+":IntoRegexCharIter"])
open("/verif/properties.jsonl","w").write("".join(json.dumps(x,ensure_ascii=False)+"\n" for x in P))
print(len(P))
