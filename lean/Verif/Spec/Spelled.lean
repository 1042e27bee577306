import Verif.Spec.Pattern

/-! # Specification: how an expression is spelled

An expression as a reader sees it: characters, optional texts, alternatives and parameters in the order written. It is
forgotten where things stand, which characters were escaped, and how texts and whitespace follow each other. -/

namespace CE.Spec

/-- Inside an alternation: a character or an optional text. -/
inductive Letter
  | char (c : Char)
  | optional (text : List Char)
  deriving DecidableEq

inductive Atom
  | char (c : Char)
  | optional (text : List Char)
  | oneOf (branches : List (List Letter))
  | parameter (name : List Char)
  deriving DecidableEq

def letters : Alternative → List Letter
  | .text t => (unescape t.frag).map .char
  | .optional o => [.optional (unescape o.input.frag)]

def atoms : SingleExpression → List Atom
  | .text t => (unescape t.frag).map .char
  | .whitespaces t => t.frag.map .char
  | .optional o => [.optional (unescape o.input.frag)]
  | .alternation a => [.oneOf (a.map (·.flatMap letters))]
  | .parameter p => [.parameter p.input.frag]

/-- What is spelled by an expression. -/
def spelled (x : Expression) : List Atom := x.flatMap atoms

end CE.Spec
