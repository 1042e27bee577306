import Verif.Spec.Errors

/-! # Specification: outcomes of `single_expression`, and what an outcome depends on -/

namespace CE.Spec

/-- `cs` starts with complete texts and optionals, and what follows them is not a `/`. -/
def Plain (cs : List Char) : Prop := ∃ b v, ValidPieces b ∧ cs = renderPieces b ++ v ∧ EndOr [' ', '{'] v

/-- The outcome of `single_expression` at `s` with indexer `n`, and the new value of the indexer. -/
inductive SingleOutcome (s : Span) (n : Nat) : IRes SingleExpression × Nat → Prop
  | eof : s.frag = [] → SingleOutcome s n (.error (.error (.other s .alt)), n)
  | alternation (bs v) : 2 ≤ bs.length → (∀ b ∈ bs, ValidPieces b ∧ ∃ q ∈ b, q.isText = true) →
      s.frag = renderBranches bs ++ v → EndOr [' ', '{'] v →
      SingleOutcome s n (.ok (s.sub (renderBranches bs) v, .alternation (locateBranches s [] bs)), n)
  | optional (t v) : IsOptional s.frag t v → Plain s.frag →
      SingleOutcome s n (.ok (s.sub ('(' :: t ++ [')']) v, .optional ⟨s.sub ['('] t⟩), n)
  | parameter (t v) : IsParameter s.frag t v →
      SingleOutcome s n (.ok (s.sub ('{' :: t ++ ['}']) v, .parameter ⟨s.sub ['{'] t, n⟩), n + 1)
  | text (t v) : Run textStops s.frag t v → t ≠ [] → Plain s.frag →
      SingleOutcome s n (.ok (s.sub t v, .text (s.sub [] t)), n)
  | whitespaces (t v) : s.frag = t ++ v → t ≠ [] → (∀ c ∈ t, c = ' ') → v.head? ≠ some ' ' →
      SingleOutcome s n (.ok (s.sub t v, .whitespaces (s.sub [] t)), n)
  | alternationFailure (e) : AlternationFailure s e → SingleOutcome s n (.error (.failure e), n)
  | parameterFailure (r t w e) : s.frag = '{' :: r → Run nameStops r t w → ParameterFailure s t w e →
      SingleOutcome s n (.error (.failure e), n)

/-- The result of parser `p` on `x ++ y` consumes exactly `x`; on `x ++ y'` it is the same, with `y'` left. -/
def SameOn {α : Type} (p : Span → IRes α) (o l : Nat) (x y y' : List Char) : Prop :=
  ∀ a o' l', p ⟨o, l, x ++ y⟩ = .ok (⟨o', l', y⟩, a) → p ⟨o, l, x ++ y'⟩ = .ok (⟨o', l', y'⟩, a)

/-- `y` ends an element written `x`: anything ends a parameter, everything but another space ends whitespace, and the
end of input, a space or a parameter end anything else. -/
def Boundary (x y : List Char) : Prop :=
  match x.head? with
  | some '{' => True
  | some ' ' => y.head? ≠ some ' '
  | _ => EndOr [' ', '{'] y

/-- The optional `(b)`, `n` times. -/
def optionals : Nat → List Char
  | 0 => []
  | n + 1 => '(' :: 'b' :: ')' :: optionals n

end CE.Spec
