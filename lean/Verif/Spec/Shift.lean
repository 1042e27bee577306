import Verif.Model.Parse

/-! # Specification: moving a result to another place -/

namespace CE

/-- The same text `o` bytes and `l` lines further. -/
def Span.shift (o l : Nat) (s : Span) : Span := ⟨s.offset + o, s.line + l, s.frag⟩

def Optional.shift (o l : Nat) (x : Optional) : Optional := ⟨x.input.shift o l⟩

/-- Also adding `k` to the id. -/
def Parameter.shift (o l k : Nat) (x : Parameter) : Parameter := ⟨x.input.shift o l, x.id + k⟩

def Alternative.shift (o l : Nat) : Alternative → Alternative
  | .optional x => .optional (x.shift o l)
  | .text s => .text (s.shift o l)

def Alternation.shift (o l : Nat) (a : Alternation) : Alternation := a.map (·.map (Alternative.shift o l))

def SingleExpression.shift (o l k : Nat) : SingleExpression → SingleExpression
  | .alternation a => .alternation (a.shift o l)
  | .optional x => .optional (x.shift o l)
  | .parameter p => .parameter (p.shift o l k)
  | .text s => .text (s.shift o l)
  | .whitespaces s => .whitespaces (s.shift o l)

def Expression.shift (o l k : Nat) (x : Expression) : Expression := x.map (SingleExpression.shift o l k)

def PErr.shift (o l : Nat) : PErr → PErr
  | .nestedParameter s => .nestedParameter (s.shift o l)
  | .optionalInParameter s => .optionalInParameter (s.shift o l)
  | .unfinishedParameter s => .unfinishedParameter (s.shift o l)
  | .nestedOptional s => .nestedOptional (s.shift o l)
  | .parameterInOptional s => .parameterInOptional (s.shift o l)
  | .emptyOptional s => .emptyOptional (s.shift o l)
  | .alternationInOptional s => .alternationInOptional (s.shift o l)
  | .unfinishedOptional s => .unfinishedOptional (s.shift o l)
  | .emptyAlternation s => .emptyAlternation (s.shift o l)
  | .onlyOptionalInAlternation s => .onlyOptionalInAlternation (s.shift o l)
  | .unescapedReservedCharacter s => .unescapedReservedCharacter (s.shift o l)
  | .escapedNonReservedCharacter s => .escapedNonReservedCharacter (s.shift o l)
  | .escapedEndOfLine s => .escapedEndOfLine (s.shift o l)
  | .other s k => .other (s.shift o l) k
  | .needed n => .needed n

def Err.shift (o l : Nat) : Err → Err
  | .error e => .error (e.shift o l)
  | .failure e => .failure (e.shift o l)
  | .incomplete n => .incomplete n
  | .panic => .panic
  | .diverge => .diverge

/-- Moving the result of a parser, with `f` moving its value. -/
def IRes.shift {α : Type} (o l : Nat) (f : α → α) : IRes α → IRes α
  | .ok (r, a) => .ok (r.shift o l, f a)
  | .error e => .error (e.shift o l)

end CE
