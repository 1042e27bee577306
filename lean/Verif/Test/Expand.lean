import Verif.Model.Parameters
import Verif.Model.RegexSearch
import Verif.Model.Combinator
import Verif.Model.Display

/-! # Tests of the model, not proofs: the unit tests of `/repo/src/expand` and `/repo/src/combinator.rs`, and the examples of
the documentation, replayed. `\d`, `\s`, `\w` are restricted to ASCII here. -/

namespace CE

set_option maxRecDepth 100000

/-- ASCII classes. -/
def ascii : Regex.Tests := ⟨Char.isDigit, Char.isWhitespace, fun c => c.isAlphanum || c == '_',
  fun n c => (n == ['L', 'u'] && c.isUpper) || (n == ['L', 'l'] && c.isLower) || (n == ['L'] && c.isAlpha) || (n == ['N', 'd'] && c.isDigit), []⟩

/-- `is_match` answers as expected. -/
def answers (r : Regex.Re) (l : List (List Char × Bool)) : Bool := l.all fun (w, b) => (r.find ascii w).isSome == b

/-- `alternation_with_optional` (`/repo/src/expand/mod.rs:612`). -/
example : ∃ c, Expression.regex (chars! "a/b(c)") = .ok c ∧ c.pattern = chars! "^(?:a|b(?:c)?)$" ∧
    answers c.re [] = true :=
  ⟨_, rfl, rfl, by decide +kernel⟩

/-- `alternation` (`/repo/src/expand/mod.rs:620`). -/
example : ∃ c, Expression.regex (chars! "a/b c/d/e") = .ok c ∧ c.pattern = chars! "^(?:a|b) (?:c|d|e)$" ∧
    answers c.re [(chars! "a c", true), (chars! "b e", true), (chars! "c e", false), (chars! "a", false), (chars! "a ", false)] = true :=
  ⟨_, rfl, rfl, by decide +kernel⟩

/-- `empty` (`/repo/src/expand/mod.rs:633`). -/
example : ∃ c, Expression.regex (chars! "") = .ok c ∧ c.pattern = chars! "^$" ∧
    answers c.re [(chars! "", true), (chars! "a", false)] = true :=
  ⟨_, rfl, rfl, by decide +kernel⟩

/-- `escape_regex_characters` (`/repo/src/expand/mod.rs:643`). -/
example : ∃ c, Expression.regex (chars! "^$[]\\()\\{}\\\\.|?*+") = .ok c ∧ c.pattern = chars! "^\\^\\$\\[\\]\\(\\)\\{\\}\\\\\\.\\|\\?\\*\\+$" ∧
    answers c.re [(chars! "^$[](){}\\.|?*+", true)] = true :=
  ⟨_, rfl, rfl, by decide +kernel⟩

/-- `optional` (`/repo/src/expand/mod.rs:652`). -/
example : ∃ c, Expression.regex (chars! "(a)") = .ok c ∧ c.pattern = chars! "^(?:a)?$" ∧
    answers c.re [(chars! "", true), (chars! "a", true), (chars! "b", false)] = true :=
  ⟨_, rfl, rfl, by decide +kernel⟩

/-- `parameter_int` (`/repo/src/expand/mod.rs:663`). -/
example : ∃ c, Expression.regex (chars! "{int}") = .ok c ∧ c.pattern = chars! "^((?:-?\\d+)|(?:\\d+))$" ∧
    answers c.re [(chars! "123", true), (chars! "-123", true), (chars! "+123", false), (chars! "123.", false)] = true :=
  ⟨_, rfl, rfl, by decide +kernel⟩

/-- `parameter_float` (`/repo/src/expand/mod.rs:675`). -/
example : ∃ c, Expression.regex (chars! "{float}") = .ok c ∧ c.pattern = chars! "^([+-]?(?:inf|NaN|(?:\\d+|\\d+\\.\\d*|\\d*\\.\\d+)(?:[eE][+-]?\\d+)?))$" ∧
    answers c.re [(chars! "+1", true), (chars! ".1", true), (chars! "-.1", true), (chars! "-1.", true), (chars! "-1.1E+1", true), (chars! "-inf", true), (chars! "NaN", true)] = true :=
  ⟨_, rfl, rfl, by decide +kernel⟩

/-- `parameter_word` (`/repo/src/expand/mod.rs:696`). -/
example : ∃ c, Expression.regex (chars! "{word}") = .ok c ∧ c.pattern = chars! "^([^\\s]+)$" ∧
    answers c.re [(chars! "test", true), (chars! "\"test\"", true), (chars! "with space", false)] = true :=
  ⟨_, rfl, rfl, by decide +kernel⟩

/-- `parameter_string` (`/repo/src/expand/mod.rs:707`). -/
example : ∃ c, Expression.regex (chars! "{string}") = .ok c ∧ c.pattern = chars! "^(?:\"(?P<__0_0>[^\"\\\\]*(?:\\\\.[^\"\\\\]*)*)\"|'(?P<__0_1>[^'\\\\]*(?:\\\\.[^'\\\\]*)*)')$" ∧
    answers c.re [(chars! "\"\"", true), (chars! "''", true), (chars! "'with \"'", true), (chars! "\"with '\"", true), (chars! "\"with \\\" escaped\"", true), (chars! "'with \\' escaped'", true), (chars! "word", false)] = true :=
  ⟨_, rfl, rfl, by decide +kernel⟩

/-- `multiple_string_parameters` (`/repo/src/expand/mod.rs:728`). -/
example : ∃ c, Expression.regex (chars! "{string} {string}") = .ok c ∧ c.pattern = chars! "^(?:\"(?P<__0_0>[^\"\\\\]*(?:\\\\.[^\"\\\\]*)*)\"|'(?P<__0_1>[^'\\\\]*(?:\\\\.[^'\\\\]*)*)') (?:\"(?P<__1_0>[^\"\\\\]*(?:\\\\.[^\"\\\\]*)*)\"|'(?P<__1_1>[^'\\\\]*(?:\\\\.[^'\\\\]*)*)')$" ∧
    answers c.re [(chars! "\"\" ''", true), (chars! "'' \"\"", true), (chars! "'with \"' \"\"", true), (chars! "\"with '\" '\"'", true), (chars! "\"with \\\" escaped\" 'with \\' escaped'", true), (chars! "'with \\' escaped' \"with \\\" escaped\"", true)] = true :=
  ⟨_, rfl, rfl, by decide +kernel⟩

/-- `parameter_all` (`/repo/src/expand/mod.rs:751`). -/
example : ∃ c, Expression.regex (chars! "{}") = .ok c ∧ c.pattern = chars! "^(.*)$" ∧
    answers c.re [(chars! "anything matches", true)] = true :=
  ⟨_, rfl, rfl, by decide +kernel⟩

/-- `text` (`/repo/src/expand/mod.rs:760`). -/
example : ∃ c, Expression.regex (chars! "a") = .ok c ∧ c.pattern = chars! "^a$" ∧
    answers c.re [(chars! "a", true), (chars! "b", false), (chars! "ab", false)] = true :=
  ⟨_, rfl, rfl, by decide +kernel⟩

/-- `unicode` (`/repo/src/expand/mod.rs:771`). -/
example : ∃ c, Expression.regex (chars! "Привет, Мир(ы)!") = .ok c ∧ c.pattern = chars! "^Привет, Мир(?:ы)?!$" ∧
    answers c.re [(chars! "Привет, Мир!", true), (chars! "Привет, Миры!", true), (chars! "Hello world", false)] = true :=
  ⟨_, rfl, rfl, by decide +kernel⟩

/-- `unknown_parameter` (`/repo/src/expand/mod.rs:782`). -/
example : ∃ s, Expression.regex (chars! "{custom}") = .err (.expansion (.notFound s)) ∧ s.frag = chars! "custom" := ⟨_, rfl, rfl⟩

/-- README (`/repo/README.md:14-25`). -/
example : ∃ c, Expression.regex (chars! "I have {int} cucumbers in my belly") = .ok c ∧
    c.re.find ascii (chars! "I have 42 cucumbers in my belly") =
      some (0, chars! "I have 42 cucumbers in my belly", [⟨1, 7, chars! "42"⟩]) := ⟨_, rfl, by decide +kernel⟩

/-- Documentation of `regex_with_parameters` (`/repo/src/expand/mod.rs:83-99`). -/
example : ∃ c, Expression.regexWithParameters (fun _ => none)
      (hashMapProvider [(chars! "color", chars! "[Rr]ed|[Gg]reen|[Bb]lue")]) (chars! "{word} has {color} eyes") = .ok c ∧
    c.pattern = chars! "^([^\\s]+) has ([Rr]ed|[Gg]reen|[Bb]lue) eyes$" := ⟨_, rfl, rfl⟩

/-- `custom_parameter` (`/repo/src/expand/parameters.rs:385`). -/
example : ∃ c, Expression.regexWithParameters (fun _ => none) (hashMapProvider [(chars! "custom", chars! "custom")])
      (chars! "{custom}") = .ok c ∧ c.pattern = chars! "^(custom)$" := ⟨_, rfl, rfl⟩

/-- The HIR of `"(custom)"|'(custom)'`. -/
private def quoted : Hir := .alternation [
  .concat [.literal ['"'], .capture 1 none (.literal (chars! "custom")), .literal ['"']],
  .concat [.literal ['\''], .capture 2 none (.literal (chars! "custom")), .literal ['\'']]]

/-- `custom_parameter_with_groups` (`/repo/src/expand/parameters.rs:394`). -/
example : ∃ c, Expression.regexWithParameters (fun v => if v = chars! "\"(custom)\"|'(custom)'" then some quoted else none)
      (hashMapProvider [(chars! "custom", chars! "\"(custom)\"|'(custom)'")]) (chars! "{custom} {custom}") = .ok c ∧
    c.pattern = chars! "^(?:(?:(?:\"(?P<__0_0>(?:custom))\")|(?:'(?P<__0_1>(?:custom))'))) (?:(?:(?:\"(?P<__1_0>(?:custom))\")|(?:'(?P<__1_1>(?:custom))')))$" :=
  ⟨_, rfl, rfl⟩

/-- `default_parameter` (`/repo/src/expand/parameters.rs:410`). -/
example : ∃ c, Expression.regexWithParameters (fun _ => none) (hashMapProvider [(chars! "custom", chars! "custom")])
      (chars! "{}") = .ok c ∧ c.pattern = chars! "^(.*)$" := ⟨_, rfl, rfl⟩

/-- `unknown_parameter` (`/repo/src/expand/parameters.rs:419`). -/
example : ∃ s, Expression.regexWithParameters (fun _ => none) (hashMapProvider []) (chars! "{custom}") =
    .err (.expansion (.notFound s)) ∧ s.frag = chars! "custom" := ⟨_, rfl, rfl⟩

/-! `escaped0_spec` (`/repo/src/combinator.rs:129-294`): the results of `escaped0` over `digit0` and over `digit1`. -/

/-- Both parsers return `(rest, text)`. -/
def bothOk (input rest text : List Char) : Prop :=
  (∃ r t, escaped0 (takeWhile Char.isDigit) '\\' (oneOf ['"', 'n', '\\']) (Span.new input) = .ok (r, t) ∧ r.frag = rest ∧ t.frag = text) ∧
  ∃ r t, escaped0 (takeWhile1 Char.isDigit) '\\' (oneOf ['"', 'n', '\\']) (Span.new input) = .ok (r, t) ∧ r.frag = rest ∧ t.frag = text

/-- Both parsers return the error `Escaped` at `pos`. -/
def bothErr (input pos : List Char) : Prop :=
  (∃ s, escaped0 (takeWhile Char.isDigit) '\\' (oneOf ['"', 'n', '\\']) (Span.new input) = .error (.error (.other s .escaped)) ∧ s.frag = pos) ∧
  ∃ s, escaped0 (takeWhile1 Char.isDigit) '\\' (oneOf ['"', 'n', '\\']) (Span.new input) = .error (.error (.other s .escaped)) ∧ s.frag = pos

example : bothOk [] [] [] := ⟨⟨_, _, rfl, rfl, rfl⟩, _, _, rfl, rfl, rfl⟩
example : bothOk (chars! "123;") [';'] (chars! "123") := ⟨⟨_, _, rfl, rfl, rfl⟩, _, _, rfl, rfl, rfl⟩
example : bothOk (chars! "\\n\\\";") [';'] (chars! "\\n\\\"") := ⟨⟨_, _, rfl, rfl, rfl⟩, _, _, rfl, rfl, rfl⟩
example : bothOk (chars! "\\n\\\"123;") [';'] (chars! "\\n\\\"123") := ⟨⟨_, _, rfl, rfl, rfl⟩, _, _, rfl, rfl, rfl⟩
example : bothOk (chars! "123\\n\\\";") [';'] (chars! "123\\n\\\"") := ⟨⟨_, _, rfl, rfl, rfl⟩, _, _, rfl, rfl, rfl⟩
example : bothOk (chars! "\\n\\\"123\\n;") [';'] (chars! "\\n\\\"123\\n") := ⟨⟨_, _, rfl, rfl, rfl⟩, _, _, rfl, rfl, rfl⟩
example : bothOk (chars! "123\\n\\\"567;") [';'] (chars! "123\\n\\\"567") := ⟨⟨_, _, rfl, rfl, rfl⟩, _, _, rfl, rfl, rfl⟩
example : bothErr (chars! "\\n\\r") (chars! "\\r") := ⟨⟨_, rfl, rfl⟩, _, rfl, rfl⟩
example : bothErr (chars! "\\") (chars! "\\") := ⟨⟨_, rfl, rfl⟩, _, rfl, rfl⟩

end CE
