import Verif.Model.Generic

/-! # Specification: inputs which behave like spans

A relation between inputs of another type and spans, respected by all operations; and the induced relation between
results: the same constructors everywhere, the same ids, related inputs at corresponding places. -/

namespace CE.Spec
open G (Input)

/-- Both are `none`, or both are related values. -/
inductive OptRel {α β : Type} (R : α → β → Prop) : Option α → Option β → Prop
  | none : OptRel R none none
  | some (a b) : R a b → OptRel R (some a) (some b)

/-- Lists of the same length with related elements. -/
inductive ListRel {α β : Type} (R : α → β → Prop) : List α → List β → Prop
  | nil : ListRel R [] []
  | cons {a b as bs} : R a b → ListRel R as bs → ListRel R (a :: as) (b :: bs)

/-- `R` relates inputs to spans which behave in the same way. -/
structure Alike {I : Type} [Input I] (R : I → Span → Prop) : Prop where
  elements : ∀ i s, R i s → Input.elements i = s.frag
  inputLen : ∀ i s, R i s → Input.inputLen i = s.inputLen
  take : ∀ i s n, R i s → OptRel R (Input.take i n) (s.take n)
  takeFrom : ∀ i s n, R i s → OptRel R (Input.takeFrom i n) (s.takeFrom n)
  takeSplit : ∀ i s n, R i s → OptRel (fun a b => R a.1 b.1 ∧ R a.2 b.2) (Input.takeSplit i n) (s.takeSplit n)
  position : ∀ i s q, R i s → Input.position i q = s.position q
  sliceIndex : ∀ i s n, R i s → Input.sliceIndex i n = s.sliceIndex n
  offsetTo : ∀ i s i' s', R i s → R i' s' → Input.offsetTo i i' = s.offsetTo s'
  compare : ∀ i s t, R i s → Input.compare i t = t.isPrefixOf s.frag

variable {I : Type} (R : I → Span → Prop)

/-- Errors of the same kind at related places. -/
inductive PErrRel : G.PErr I → PErr → Prop
  | nestedParameter (i s) : R i s → PErrRel (.nestedParameter i) (.nestedParameter s)
  | optionalInParameter (i s) : R i s → PErrRel (.optionalInParameter i) (.optionalInParameter s)
  | unfinishedParameter (i s) : R i s → PErrRel (.unfinishedParameter i) (.unfinishedParameter s)
  | nestedOptional (i s) : R i s → PErrRel (.nestedOptional i) (.nestedOptional s)
  | parameterInOptional (i s) : R i s → PErrRel (.parameterInOptional i) (.parameterInOptional s)
  | emptyOptional (i s) : R i s → PErrRel (.emptyOptional i) (.emptyOptional s)
  | alternationInOptional (i s) : R i s → PErrRel (.alternationInOptional i) (.alternationInOptional s)
  | unfinishedOptional (i s) : R i s → PErrRel (.unfinishedOptional i) (.unfinishedOptional s)
  | emptyAlternation (i s) : R i s → PErrRel (.emptyAlternation i) (.emptyAlternation s)
  | onlyOptionalInAlternation (i s) : R i s → PErrRel (.onlyOptionalInAlternation i) (.onlyOptionalInAlternation s)
  | unescapedReservedCharacter (i s) : R i s → PErrRel (.unescapedReservedCharacter i) (.unescapedReservedCharacter s)
  | escapedNonReservedCharacter (i s) : R i s → PErrRel (.escapedNonReservedCharacter i) (.escapedNonReservedCharacter s)
  | escapedEndOfLine (i s) : R i s → PErrRel (.escapedEndOfLine i) (.escapedEndOfLine s)
  | other (i s k) : R i s → PErrRel (.other i k) (.other s k)
  | needed (n) : PErrRel (.needed n) (.needed n)

/-- The same for `nom::Err`. -/
inductive ErrRel : G.Err I → Err → Prop
  | error (e e') : PErrRel R e e' → ErrRel (.error e) (.error e')
  | failure (e e') : PErrRel R e e' → ErrRel (.failure e) (.failure e')
  | incomplete (n) : ErrRel (.incomplete n) (.incomplete n)
  | panic : ErrRel .panic .panic
  | diverge : ErrRel .diverge .diverge

/-- The same for the results of parsers. -/
inductive ResRel {α β : Type} (A : α → β → Prop) : G.IRes I α → IRes β → Prop
  | ok (r r' a a') : R r r' → A a a' → ResRel A (.ok (r, a)) (.ok (r', a'))
  | error (e e') : ErrRel R e e' → ResRel A (.error e) (.error e')

/-- Related optionals. -/
def OptionalRel (a : G.Optional I) (b : Optional) : Prop := R a.input b.input
/-- Related parameters. -/
def ParameterRel (a : G.Parameter I) (b : Parameter) : Prop := R a.input b.input ∧ a.id = b.id
/-- Related parts of alternations. -/
inductive AlternativeRel : G.Alternative I → Alternative → Prop
  | optional (o o') : OptionalRel R o o' → AlternativeRel (.optional o) (.optional o')
  | text (i s) : R i s → AlternativeRel (.text i) (.text s)
/-- Related alternations. -/
def AlternationRel : G.Alternation I → Alternation → Prop := ListRel (ListRel (AlternativeRel R))
/-- Related elements of expressions. -/
inductive SingleRel : G.SingleExpression I → SingleExpression → Prop
  | alternation (a a') : AlternationRel R a a' → SingleRel (.alternation a) (.alternation a')
  | optional (o o') : OptionalRel R o o' → SingleRel (.optional o) (.optional o')
  | parameter (p p') : ParameterRel R p p' → SingleRel (.parameter p) (.parameter p')
  | text (i s) : R i s → SingleRel (.text i) (.text s)
  | whitespaces (i s) : R i s → SingleRel (.whitespaces i) (.whitespaces s)
/-- Related expressions. -/
def ExpressionRel : G.Expression I → Expression → Prop := ListRel (SingleRel R)

end CE.Spec
