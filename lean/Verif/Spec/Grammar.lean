/-! # Specification: the EBNF grammar of README.md

`/repo/README.md` lines 46-73 ("Grammar"), written with the usual operations on languages, and the relaxed grammar
(C05) which differs in two points only. -/

namespace CE.Spec.Grammar

abbrev Lang := List Char → Prop

/-- Concatenation `A, B`. -/
def seq (A B : Lang) : Lang := fun w => ∃ a b, w = a ++ b ∧ A a ∧ B b
/-- Choice `A | B`. -/
def or (A B : Lang) : Lang := fun w => A w ∨ B w
/-- Repetition `A*`. -/
inductive star (A : Lang) : Lang
  | nil : star A []
  | cons (a b : List Char) : A a → star A b → star A (a ++ b)
/-- Repetition `A+`. -/
def plus (A : Lang) : Lang := seq A (star A)
/-- The terminal `c`. -/
def chr (c : Char) : Lang := fun w => w = [c]
/-- `(- excluded) | ('\', escapable)`. -/
def charOr (excluded escapable : List Char) : Lang := fun w =>
  (∃ c, w = [c] ∧ c ∉ excluded) ∨ ∃ c ∈ escapable, w = ['\\', c]

def textToEscape : List Char := ['(', '{', '/', '\\']
def alternativeToEscape : List Char := [' ', '(', '{', '/', '\\']
def optionalToEscape : List Char := ['(', ')', '{', '/', '\\']
def nameToEscape : List Char := ['{', '}', '(', '/', '\\']

/-! ## The grammar of README.md -/
namespace Readme

def name : Lang := charOr nameToEscape nameToEscape
def parameter : Lang := seq (chr '{') (seq (star name) (chr '}'))
def textInOptional : Lang := charOr optionalToEscape optionalToEscape
def optional : Lang := seq (chr '(') (seq (plus textInOptional) (chr ')'))
def whitespace : Lang := chr ' '
def textInAlternative : Lang := charOr alternativeToEscape alternativeToEscape
def singleAlternation : Lang :=
  plus (or (seq (plus textInAlternative) (star optional)) (seq (plus optional) (plus textInAlternative)))
def alternation : Lang := seq singleAlternation (plus (seq (chr '/') singleAlternation))
def textWithoutWhitespace : Lang := charOr (' ' :: textToEscape) textToEscape
def singleExpression : Lang :=
  or alternation (or optional (or parameter (or (plus textWithoutWhitespace) (plus whitespace))))
def expression : Lang := star singleExpression

end Readme

/-! ## The relaxed grammar: (1) any reserved character can be escaped anywhere; (2) a branch of an alternation is any
sequence of texts and optionals with at least one text. -/
namespace Relaxed

def anyReserved : List Char := ['{', '}', '(', ')', '\\', '/', ' ']

def name : Lang := charOr nameToEscape anyReserved
def parameter : Lang := seq (chr '{') (seq (star name) (chr '}'))
def textInOptional : Lang := charOr optionalToEscape anyReserved
def optional : Lang := seq (chr '(') (seq (plus textInOptional) (chr ')'))
def whitespace : Lang := chr ' '
def textInAlternative : Lang := charOr alternativeToEscape anyReserved
def singleAlternation : Lang :=
  seq (star (or textInAlternative optional)) (seq textInAlternative (star (or textInAlternative optional)))
def alternation : Lang := seq singleAlternation (plus (seq (chr '/') singleAlternation))
def textWithoutWhitespace : Lang := charOr (' ' :: textToEscape) anyReserved
def singleExpression : Lang :=
  or alternation (or optional (or parameter (or (plus textWithoutWhitespace) (plus whitespace))))
def expression : Lang := star singleExpression

end Relaxed
end CE.Spec.Grammar
