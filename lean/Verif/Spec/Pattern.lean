import Verif.Spec.Lang

/-! # Specification: the pattern of an expression

How each element is written as a regular expression. -/

namespace CE.Spec

/-- A literal text. -/
def literal (t : List Char) : List Char := (unescape t).flatMap quote

/-- `(?: )` around a pattern. -/
def enclosed (p : List Char) : List Char := "(?:".toList ++ p ++ [')']

def alternativePattern : Alternative → List Char
  | .text t => literal t.frag
  | .optional o => enclosed (literal o.input.frag) ++ ['?']

def elementPattern (param : Parameter → List Char) : SingleExpression → List Char
  | .text t => literal t.frag
  | .whitespaces t => t.frag
  | .optional o => enclosed (literal o.input.frag) ++ ['?']
  | .alternation a => enclosed (['|'].intercalate (a.map (·.flatMap alternativePattern)))
  | .parameter p => param p

/-- The regular expressions of the built-in parameter types. -/
def Builtin.pattern : Builtin → (id : Nat) → List Char
  | .int, _ => "((?:-?\\d+)|(?:\\d+))".toList
  | .float, _ => "([+-]?(?:inf|NaN|(?:\\d+|\\d+\\.\\d*|\\d*\\.\\d+)(?:[eE][+-]?\\d+)?))".toList
  | .word, _ => "([^\\s]+)".toList
  | .string, id => "(?:\"(?P<".toList ++ groupName id 0 ++ ">[^\"\\\\]*(?:\\\\.[^\"\\\\]*)*)\"|'(?P<".toList ++ groupName id 1 ++
      ">[^'\\\\]*(?:\\\\.[^'\\\\]*)*)')".toList
  | .anonymous, _ => "(.*)".toList

end CE.Spec
