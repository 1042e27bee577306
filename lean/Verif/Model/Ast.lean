import Verif.Model.Nom

/-! # `/repo/src/ast.rs`: the syntax tree (with `Input := Span`) -/

namespace CE

/-- `Optional<Input>` (`/repo/src/ast.rs:150-157`). -/
structure Optional where
  input : Span
  deriving DecidableEq, Repr

/-- `Parameter<Input>` (`/repo/src/ast.rs:159-178`). -/
structure Parameter where
  input : Span
  id : Nat
  deriving DecidableEq, Repr

/-- `Alternative<Input>` (`/repo/src/ast.rs:135-148`). -/
inductive Alternative
  | optional (o : Optional)
  | text (s : Span)
  deriving DecidableEq, Repr

/-- `SingleAlternation<Input>` (`/repo/src/ast.rs:98-102`). -/
abbrev SingleAlternation := List Alternative

/-- `Alternation<Input>` (`/repo/src/ast.rs:104-111`). -/
abbrev Alternation := List SingleAlternation

/-- `SingleExpression<Input>` (`/repo/src/ast.rs:63-96`). -/
inductive SingleExpression
  | alternation (a : Alternation)
  | optional (o : Optional)
  | parameter (p : Parameter)
  | text (s : Span)
  | whitespaces (s : Span)
  deriving DecidableEq, Repr

/-- `Expression<Input>` (`/repo/src/ast.rs:28-34`). -/
abbrev Expression := List SingleExpression

/-- The summand of `Alternation::span_len` (`/repo/src/ast.rs:118-121`). -/
def Alternative.spanLen : Alternative → Nat
  | .text t => t.inputLen
  | .optional o => o.input.inputLen + 2

/-- `Alternation::span_len` (`/repo/src/ast.rs:113-125`). `none` models the underflow panic of `- 1` in `usize`. -/
def Alternation.spanLen (a : Alternation) : Option Nat :=
  let total := ((a.flatten).map Alternative.spanLen).sum + a.length
  if total = 0 then none else some (total - 1)

/-- `matches!(alt, Alternative::Optional(_))` (`/repo/src/ast.rs:131`). -/
def Alternative.isOptional : Alternative → Bool
  | .optional _ => true
  | .text _ => false

/-- `Alternation::contains_only_optional` (`/repo/src/ast.rs:127-133`). -/
def Alternation.containsOnlyOptional (a : Alternation) : Bool :=
  a.any (fun single => single.all Alternative.isOptional)

end CE
