import Verif.Spec.Message

/-!
# Specification: the documented failures of the public parsers

The lists under "Irrecoverable `Failure`" in the documentation of each parser, and what it means for such a list to be
accurate: it names exactly the kinds of failures that some input provokes.
-/

namespace CE.Spec

/-- src/parse.rs:117-123 -/
def parameterDoc : List Kind :=
  [.escapedNonReservedCharacter, .nestedParameter, .optionalInParameter, .unescapedReservedCharacter, .unfinishedParameter]

/-- src/parse.rs:228-237 -/
def optionalDoc : List Kind :=
  [.alternationInOptional, .emptyOptional, .escapedEndOfLine, .escapedNonReservedCharacter, .nestedOptional,
   .parameterInOptional, .unescapedReservedCharacter, .unfinishedOptional]

/-- src/parse.rs:343-345 -/
def alternativeDoc : List Kind := optionalDoc

/-- src/parse.rs:399-403 -/
def alternationDoc : List Kind := optionalDoc ++ [.emptyAlternation, .onlyOptionalInAlternation]

/-- src/parse.rs:476-478 and 541-543 -/
def expressionDoc : List Kind := alternationDoc ++ optionalDoc ++ parameterDoc

/-- The parser `p` fails irrecoverably with an error of kind `k` on the input `s`. -/
def FailsWith {α : Type} (p : Span → IRes α) (s : Span) (k : Kind) : Prop :=
  ∃ e sp, p s = .error (.failure e) ∧ Describes e k sp

/-- Every irrecoverable failure of the parser, on any input, has one of these kinds; and each of these kinds is the
failure of some input. -/
def Accurate {α : Type} (p : Span → IRes α) (doc : List Kind) : Prop :=
  (∀ s e, p s = .error (.failure e) → ∃ k sp, Describes e k sp ∧ k ∈ doc) ∧
  ∀ k ∈ doc, ∃ src, FailsWith p (Span.new src) k

end CE.Spec
