import Verif.Model.Expand

/-!
# Error messages: `Display` of `parse::Error`, `ParameterError`, `expand::Error`

The implementations are derived (`derive_more::Display`) from the `#[display(…)]` attributes. A span is displayed as its
fragment (external, `nom_locate`). Messages of `regex::Error` and `regex_syntax::Error` (external) are arbitrary texts.
-/

namespace CE

/-- A list of characters, written as a string. -/
macro "chars! " s:str : term => return Lean.quote s.getString.toList

/-- The `#[display(…)]` texts of `parse::Error` after `{_0}` (`/repo/src/parse.rs:560-680`). In that of `EscapedEndOfLine` the
Rust escape `\'` stands for a quote, so that it ends with two quotes. -/
def PErr.text : PErr → List Char
  | .nestedParameter _ =>
    chars! "\nA parameter may not contain an other parameter.\nIf you did not mean to use an optional type you can use '\\{' to escape the '{'. For more complicated expressions consider using a regular expression instead."
  | .optionalInParameter _ =>
    chars! "\nA parameter may not contain an optional.\nIf you did not mean to use an parameter type you can use '\\(' to escape the '('."
  | .unfinishedParameter _ =>
    chars! "\nThe '{' does not have a matching '}'.\nIf you did not intend to use a parameter you can use '\\{' to escape the '{'."
  | .nestedOptional _ =>
    chars! "\nAn optional may not contain an other optional.\nIf you did not mean to use an optional type you can use '\\(' to escape the '('. For more complicated expressions consider using a regular expression instead."
  | .parameterInOptional _ =>
    chars! "\nAn optional may not contain a parameter.\nIf you did not mean to use an parameter type you can use '\\{' to escape the '{'."
  | .emptyOptional _ =>
    chars! "\nAn optional must contain some text.\nIf you did not mean to use an optional you can use '\\(' to escape the '('."
  | .alternationInOptional _ =>
    chars! "\nAn alternation can not be used inside an optional.\nYou can use '\\/' to escape the '/'."
  | .unfinishedOptional _ =>
    chars! "\nThe '(' does not have a matching ')'.\nIf you did not intend to use an optional you can use '\\(' to escape the '('."
  | .emptyAlternation _ =>
    chars! "\nAn alternation can not be empty.\nIf you did not mean to use an alternative you can use '\\/' to escape the '/'."
  | .onlyOptionalInAlternation _ =>
    chars! "\nAn alternation may not exclusively contain optionals.\nIf you did not mean to use an optional you can use '\\(' to escape the '('."
  | .unescapedReservedCharacter _ =>
    chars! "\nUnescaped reserved character.\nYou can use an '\\' to escape it."
  | .escapedNonReservedCharacter _ =>
    chars! "\nOnly the characters '{', '}', '(', ')', '\\', '/' and whitespace can be escaped.\nIf you did mean to use an '\\' you can use '\\\\' to escape it."
  | .escapedEndOfLine _ =>
    chars! "\nThe end of line can not be escaped.\nYou can use '\\' to escape the the ''."
  | .other _ _ => chars! "\nUnknown parsing error."
  | .needed _ => []

/-- `Display for parse::Error` (`/repo/src/parse.rs:558-697`). -/
def PErr.display (e : PErr) : List Char :=
  match e with
  | .needed (.size n) => chars! "Parsing requires " ++ decimal n ++ chars! " bytes/chars"
  | .needed .unknown => chars! "Parsing requires more data"
  | .nestedParameter s => s.frag ++ e.text
  | .optionalInParameter s => s.frag ++ e.text
  | .unfinishedParameter s => s.frag ++ e.text
  | .nestedOptional s => s.frag ++ e.text
  | .parameterInOptional s => s.frag ++ e.text
  | .emptyOptional s => s.frag ++ e.text
  | .alternationInOptional s => s.frag ++ e.text
  | .unfinishedOptional s => s.frag ++ e.text
  | .emptyAlternation s => s.frag ++ e.text
  | .onlyOptionalInAlternation s => s.frag ++ e.text
  | .unescapedReservedCharacter s => s.frag ++ e.text
  | .escapedNonReservedCharacter s => s.frag ++ e.text
  | .escapedEndOfLine s => s.frag ++ e.text
  | .other s _ => s.frag ++ e.text

/-- `Display for ParameterError` (`/repo/src/expand/mod.rs:152-176`); `err` is the message of the `regex_syntax::Error`. -/
def ParameterError.display (err : List Char) : ParameterError → List Char
  | .notFound s => chars! "Parameter `" ++ s.frag ++ chars! "` not found"
  | .renameRegexGroup p re => chars! "Failed to rename capturing groups in regex `" ++ re ++ chars! "` of parameter `" ++
      p.frag ++ chars! "`: " ++ err

/-- `Display for expand::Error` (`/repo/src/expand/mod.rs:133-150`); `err` is the message of the external error, if any. -/
def ExpandError.display (err : List Char) : ExpandError → List Char
  | .parsing e => chars! "Parsing failed: " ++ e.display
  | .expansion e => chars! "Failed to expand regex: " ++ e.display err
  | .regex _ => chars! "Regex creation failed: " ++ err

end CE
