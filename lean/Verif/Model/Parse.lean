import Verif.Model.Ast
import Verif.Model.Combinator

/-! # `/repo/src/parse.rs`: the parsers, and `/repo/src/ast.rs:36-61`: `Expression::parse` -/

namespace CE

/-- `RESERVED_CHARS` (`/repo/src/parse.rs:38-39`). -/
def RESERVED_CHARS : List Char := ['{', '}', '(', ')', '\\', '/', ' ']

/-- `Error::failure` applied to `Error::X(inp.take(n))` (`/repo/src/parse.rs:704-706` and its uses). -/
def failTake (inp : Span) (n : Nat) (f : Span → PErr) : Err :=
  match inp.take n with
  | some s => .failure (f s)
  | none => .panic

/-- The closure given to `map_err` in `escaped_reserved_chars0` (`/repo/src/parse.rs:73-86`). -/
def escapedErr (e : Err) : Err :=
  match e with
  | .error (.other span .escaped) =>
    match span.inputLen with
    | 1 => .failure (.escapedEndOfLine span)
    | n =>
      if n > 1 then
        failTake span ((span.sliceIndex 2).getD 0) .escapedNonReservedCharacter
      else .failure (.escapedNonReservedCharacter span)
  | e => e

/-- `escaped_reserved_chars0` (`/repo/src/parse.rs:61-88`). -/
def escapedReservedChars0 {α : Type} (normal : P α) : P Span :=
  mapErr (escaped0 normal '\\' (oneOf RESERVED_CHARS)) escapedErr

/-- `is_name` (`/repo/src/parse.rs:148-150`). -/
def isName (c : Char) : Bool := !(['{', '}', '(', '\\', '/'].contains c)

/-- `is_in_optional` (`/repo/src/parse.rs:257-259`). -/
def isInOptional (c : Char) : Bool := !(['(', ')', '{', '\\', '/'].contains c)

/-- `is_without_whitespace` in `alternative` (`/repo/src/parse.rs:356-358`) and in `single_expression`
(`/repo/src/parse.rs:497-499`): the two are textually identical. -/
def isWithoutWhitespace (c : Char) : Bool := !([' ', '(', '{', '\\', '/'].contains c)

/-- `is_whitespace` (`/repo/src/parse.rs:500-502`). -/
def isWhitespace (c : Char) : Bool := c == ' '

/-- `if let Ok(x) = r { return k(x) } els`, for error reporting; `panic`/`diverge` are not caught.
For `/repo/src/parse.rs:155-169`. -/
def ifOk {α : Type} (r : Except Err α) (k : α → Err) (els : Err) : Err :=
  match r with
  | .ok a => k a
  | .error .panic => .panic
  | .error .diverge => .diverge
  | .error _ => els

/-- The tuple parser `(p, escaped_reserved_chars0(take_while(cls)), tag(close))` of
`/repo/src/parse.rs:155-161` and `264-268`, under `peek`: only the first output is used. -/
def nestedTuple {α : Type} (p : P α) (cls : Char → Bool) (close : List Char) (inp : Span) : Except Err α := do
  let (i1, a) ← p inp
  let (i2, _) ← escapedReservedChars0 (takeWhile cls) i1
  let (_, _) ← tag close i2
  pure a

/-- The closure `fail` of `parameter` (`/repo/src/parse.rs:152-189`); the recursive parsers are arguments. -/
def parameterFail (par : PS Parameter) (opt : P Optional) (inp openingBrace : Span) : Err :=
  match inp.frag.head? with
  | some '{' =>
    ifOk (nestedTuple (fun i => (par i 0).1) isName ['}'] inp)
      (fun p => failTake inp (p.input.inputLen + 2) .nestedParameter)
      (failTake inp 1 .unescapedReservedCharacter)
  | some '(' =>
    ifOk (peek opt inp)
      (fun o => failTake inp (o.2.input.inputLen + 2) .optionalInParameter)
      (failTake inp 1 .unescapedReservedCharacter)
  | some c =>
    if RESERVED_CHARS.contains c then failTake inp 1 .unescapedReservedCharacter
    else .failure (.unfinishedParameter openingBrace)
  | none => .failure (.unfinishedParameter openingBrace)

/-- The closure `fail` of `optional` (`/repo/src/parse.rs:261-303`); the recursive parsers are arguments. -/
def optionalFail (par : PS Parameter) (opt : P Optional) (inp openingParen : Span) : Err :=
  match inp.frag.head? with
  | some '(' =>
    ifOk (nestedTuple opt isInOptional [')'] inp)
      (fun o => failTake inp (o.input.inputLen + 2) .nestedOptional)
      (failTake inp 1 .unescapedReservedCharacter)
  | some '{' =>
    ifOk (peek (fun i => (par i 0).1) inp)
      (fun p => failTake inp (p.2.input.inputLen + 2) .parameterInOptional)
      (failTake inp 1 .unescapedReservedCharacter)
  | some '/' => failTake inp 1 .alternationInOptional
  | some c =>
    if RESERVED_CHARS.contains c then failTake inp 1 .unescapedReservedCharacter
    else .failure (.unfinishedOptional openingParen)
  | none => .failure (.unfinishedOptional openingParen)

/- `parameter` and `optional` call each other through `fail`; fuel = allowed depth of nested calls. -/
mutual

/-- `parameter` (`/repo/src/parse.rs:138-200`) with a bound on the depth of recursive calls. -/
def parameterF : Nat → Span → Nat → IRes Parameter × Nat
  | 0, _, indexer => (.error .diverge, indexer)
  | fuel + 1, input, indexer =>
    match tag ['{'] input with
    | .error e => (.error e, indexer)
    | .ok (input, openingBrace) =>
      match escapedReservedChars0 (takeWhile isName) input with
      | .error e => (.error e, indexer)
      | .ok (input, parName) =>
        match mapErr (tag ['}'])
            (fun _ => parameterFail (parameterF fuel) (optionalF fuel) input openingBrace) input with
        | .error e => (.error e, indexer)
        | .ok (input, _) => (.ok (input, ⟨parName, indexer + 1 - 1⟩), indexer + 1)

/-- `optional` (`/repo/src/parse.rs:250-318`) with a bound on the depth of recursive calls. -/
def optionalF : Nat → Span → IRes Optional
  | 0, _ => .error .diverge
  | fuel + 1, originalInput =>
    match tag ['('] originalInput with
    | .error e => .error e
    | .ok (input, openingParen) =>
      match escapedReservedChars0 (takeWhile isInOptional) input with
      | .error e => .error e
      | .ok (input, opt) =>
        match mapErr (tag [')'])
            (fun _ => optionalFail (parameterF fuel) (optionalF fuel) input openingParen) input with
        | .error e => .error e
        | .ok (input, _) =>
          if opt.inputLen = 0 then .error (failTake originalInput 2 .emptyOptional)
          else .ok (input, ⟨opt⟩)

end

/-- `parse::parameter` (`/repo/src/parse.rs:138-200`). -/
def parameter : PS Parameter := fun input indexer => parameterF (input.inputLen + 1) input indexer

/-- `parse::optional` (`/repo/src/parse.rs:250-318`). -/
def optional : P Optional := fun input => optionalF (input.inputLen + 1) input

/-- `verify(escaped_reserved_chars0(take_while(is_without_whitespace)), |p| p.input_len() > 0)`
(`/repo/src/parse.rs:363-366` and `509-512`). -/
def textParser : P Span :=
  verify (escapedReservedChars0 (takeWhile isWithoutWhitespace)) (fun s => decide (s.inputLen > 0))

/-- `parse::alternative` (`/repo/src/parse.rs:349-371`). -/
def alternative : P Alternative :=
  alt (pmap optional .optional) [pmap textParser .text]

/-- The `match` of `parse::alternation` (`/repo/src/parse.rs:418-438`). -/
def alternationHead (input : Span) : IRes Alternation :=
  match separatedList1 (tag ['/']) (many1 alternative) input with
  | .ok (rest, alt) =>
    match peek (tag ['/']) rest with
    | .ok (_, slash) => .error (.failure (.emptyAlternation slash))
    | .error .panic => .error .panic
    | .error .diverge => .error .diverge
    | .error _ =>
      if alt.length = 1 then .error (.error (.other rest .tag))
      else .ok (rest, alt)
  | .error (.error (.other sp .many1)) =>
    match peek (tag ['/']) sp with
    | .ok _ => .error (failTake sp 1 .emptyAlternation)
    | .error .panic => .error .panic
    | .error .diverge => .error .diverge
    | .error _ => .error (.error (.other sp .many1))
  | .error e => .error e

/-- `parse::alternation` (`/repo/src/parse.rs:410-448`). -/
def alternation : P Alternation := fun originalInput =>
  match alternationHead originalInput with
  | .error e => .error e
  | .ok (rest, alt) =>
    if alt.containsOnlyOptional then
      match alt.spanLen with
      | none => .error .panic
      | some n => .error (failTake originalInput n .onlyOptionalInAlternation)
    else .ok (rest, alt)

/-- `parse::single_expression` (`/repo/src/parse.rs:487-518`). -/
def singleExpression : PS SingleExpression :=
  altS (P.lift (pmap alternation .alternation))
    [ P.lift (pmap optional .optional),
      pmapS parameter .parameter,
      P.lift (pmap textParser .text),
      P.lift (pmap (takeWhile1 isWhitespace) .whitespaces) ]

/-- `parse::expression` (`/repo/src/parse.rs:547-557`): the indexer starts at 0. -/
def expression : P Expression := fun input => (many0 singleExpression input 0).1

/-- What `Expression::parse` may do: return `Ok`, return `Err`, or (excluded by C08) panic or loop.
For `/repo/src/ast.rs:35-48`. -/
inductive Outcome (ε α : Type)
  | ok (a : α)
  | err (e : ε)
  | panic
  | diverge
  deriving DecidableEq, Repr

/-- `Expression::parse` / `TryFrom<&str>` (`/repo/src/ast.rs:36-61`). -/
def Expression.parse (value : List Char) : Outcome PErr Expression :=
  match expression (Span.new value) with
  | .error (.error e) => .err e
  | .error (.failure e) => .err e
  | .error (.incomplete n) => .err (.needed n)
  | .error .panic => .panic
  | .error .diverge => .diverge
  | .ok (rest, parsed) =>
    if rest.frag.isEmpty then .ok parsed else .err (.other rest .verify)

end CE
