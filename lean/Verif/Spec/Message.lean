import Verif.Spec.Print

/-!
# Specification: errors seen by the user

The kind of an error, the text it is about, and the repair its message proposes.
-/

namespace CE.Spec

/-- The kinds of parsing errors. -/
inductive Kind
  | nestedParameter | optionalInParameter | unfinishedParameter | nestedOptional | parameterInOptional | emptyOptional
  | alternationInOptional | unfinishedOptional | emptyAlternation | onlyOptionalInAlternation | unescapedReservedCharacter
  | escapedNonReservedCharacter | escapedEndOfLine
  deriving DecidableEq, Repr

/-- Kind and span of an error. -/
inductive Describes : PErr → Kind → Span → Prop
  | nestedParameter (s) : Describes (.nestedParameter s) .nestedParameter s
  | optionalInParameter (s) : Describes (.optionalInParameter s) .optionalInParameter s
  | unfinishedParameter (s) : Describes (.unfinishedParameter s) .unfinishedParameter s
  | nestedOptional (s) : Describes (.nestedOptional s) .nestedOptional s
  | parameterInOptional (s) : Describes (.parameterInOptional s) .parameterInOptional s
  | emptyOptional (s) : Describes (.emptyOptional s) .emptyOptional s
  | alternationInOptional (s) : Describes (.alternationInOptional s) .alternationInOptional s
  | unfinishedOptional (s) : Describes (.unfinishedOptional s) .unfinishedOptional s
  | emptyAlternation (s) : Describes (.emptyAlternation s) .emptyAlternation s
  | onlyOptionalInAlternation (s) : Describes (.onlyOptionalInAlternation s) .onlyOptionalInAlternation s
  | unescapedReservedCharacter (s) : Describes (.unescapedReservedCharacter s) .unescapedReservedCharacter s
  | escapedNonReservedCharacter (s) : Describes (.escapedNonReservedCharacter s) .escapedNonReservedCharacter s
  | escapedEndOfLine (s) : Describes (.escapedEndOfLine s) .escapedEndOfLine s

/-- An error of kind `k` about the text `f` proposes to escape the character `c`. -/
def Advises : Kind → (f : List Char) → (c : Char) → Prop
  | .nestedParameter, _, c | .unfinishedParameter, _, c | .parameterInOptional, _, c => c = '{'
  | .optionalInParameter, _, c | .nestedOptional, _, c | .emptyOptional, _, c | .unfinishedOptional, _, c
  | .onlyOptionalInAlternation, _, c => c = '('
  | .alternationInOptional, _, c | .emptyAlternation, _, c => c = '/'
  | .unescapedReservedCharacter, f, c => f = [c] ∧ c ∈ reserved
  | .escapedNonReservedCharacter, _, c | .escapedEndOfLine, _, c => c = '\\'

/-- Following the advice of the error `e` of `src`: in the text the error is about, an occurrence of the character is
escaped which is not escaped yet (nor, being a backslash, escapes the next character). -/
def Repairs (src : List Char) (e : PErr) (src' : List Char) : Prop :=
  ∃ k sp p f c f' q, Describes e k sp ∧ Advises k sp.frag c ∧
    src = p ++ f ++ c :: f' ++ q ∧ sp.offset = blen p ∧ sp.frag = f ++ c :: f' ∧
    Escd [] (p ++ f) ∧ (c = '\\' → ∀ d r, f' ++ q = d :: r → d ∉ reserved) ∧
    src' = p ++ f ++ '\\' :: c :: f' ++ q

/-- The number of reserved characters that are neither escaped nor escape anything. -/
def loose : List Char → Nat
  | [] => 0
  | '\\' :: d :: r => if d ∈ reserved then loose r else loose (d :: r) + 1
  | c :: r => if c ∈ reserved then loose r + 1 else loose r

/-- The text ends with a backslash that is not part of an escape. -/
def dangles : List Char → Bool
  | [] => false
  | ['\\'] => true
  | '\\' :: d :: r => if d ∈ reserved then dangles r else dangles (d :: r)
  | _ :: r => dangles r

/-- `src'` is the result of `n` repairs of `src`, each following the advice of the error reported then (`fails src e`: `e` is the error of `src`). -/
inductive Repaired (fails : List Char → PErr → Prop) : List Char → Nat → List Char → Prop
  | done (src) : Repaired fails src 0 src
  | step {src e src' n src''} : fails src e → Repairs src e src' → Repaired fails src' n src'' →
      Repaired fails src (n + 1) src''

end CE.Spec
