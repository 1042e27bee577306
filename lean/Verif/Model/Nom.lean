import Verif.Model.Span

/-!
# Parser results and the `nom` 8 combinators used by the crate

`nom` is an external dependency (not available in the sandbox): these definitions follow its source for the
*complete* (non-streaming) parsers imported at `/repo/src/parse.rs:20-28` and `/repo/src/combinator.rs:13-16`.
-/

namespace CE

/-- `nom::error::ErrorKind` (external), restricted to the kinds that can arise in this crate.
For `/repo/src/parse.rs:26`. -/
inductive ErrorKind
  | tag | many0 | many1 | separatedList | verify | escaped | alt | takeWhile1 | oneOf
  deriving DecidableEq, Repr

/-- `nom::Needed` (external). For `/repo/src/parse.rs:21,686-694`. -/
inductive Needed
  | unknown
  | size (n : Nat)
  deriving DecidableEq, Repr

/-- `parse::Error<Input>` (`/repo/src/parse.rs:559-697`). -/
inductive PErr
  | nestedParameter (s : Span)
  | optionalInParameter (s : Span)
  | unfinishedParameter (s : Span)
  | nestedOptional (s : Span)
  | parameterInOptional (s : Span)
  | emptyOptional (s : Span)
  | alternationInOptional (s : Span)
  | unfinishedOptional (s : Span)
  | emptyAlternation (s : Span)
  | onlyOptionalInAlternation (s : Span)
  | unescapedReservedCharacter (s : Span)
  | escapedNonReservedCharacter (s : Span)
  | escapedEndOfLine (s : Span)
  | other (s : Span) (k : ErrorKind)
  | needed (n : Needed)
  deriving DecidableEq, Repr

/-- `ParseError::from_error_kind` (`/repo/src/parse.rs:710-712`). -/
def PErr.fromErrorKind (i : Span) (k : ErrorKind) : PErr := .other i k

/-- `ParseError::append` (`/repo/src/parse.rs:714-720`). -/
def PErr.append (i : Span) (k : ErrorKind) (e : PErr) : PErr :=
  match e with
  | .other _ _ => PErr.fromErrorKind i k
  | e => e

/-- `ParseError::or` (external default method): the later error wins. For `/repo/src/parse.rs:360,504`. -/
def PErr.or (_e1 e2 : PErr) : PErr := e2

/-- `nom::Err<parse::Error>` (external), extended with two outcomes that are not values in Rust:
`panic` (a slice or subtraction panicked) and `diverge` (a loop or recursion was not finished when the fuel
of the model ran out). No combinator below ever catches these two. For `/repo/src/parse.rs:21`. -/
inductive Err
  | error (e : PErr)
  | failure (e : PErr)
  | incomplete (n : Needed)
  | panic
  | diverge
  deriving DecidableEq, Repr

/-- `nom::IResult<Span, α, parse::Error<Span>>`. For `/repo/src/parse.rs:21`. -/
abbrev IRes (α : Type) := Except Err (Span × α)

/-- A stateless parser. For `/repo/src/parse.rs:140-143`. -/
abbrev P (α : Type) := Span → IRes α

/-- A parser closing over an `&mut usize`: returns the result and the new value. For `/repo/src/parse.rs:140-143`. -/
abbrev PS (α : Type) := Span → Nat → IRes α × Nat

/-- A stateless parser as one which leaves the `&mut usize` alone. For `/repo/src/parse.rs:504-516`. -/
def P.lift {α : Type} (p : P α) : PS α := fun i n => (p i, n)

/-- A Rust operation that panics on `none`. For `/repo/src/parse.rs:78`. -/
def orPanic {α : Type} : Option α → Except Err α
  | some a => .ok a
  | none => .error .panic

/-- `nom::bytes::complete::tag`. For `/repo/src/parse.rs:191,306,418`. -/
def tag (t : List Char) : P Span := fun i =>
  if t.isPrefixOf i.frag then
    match i.takeFrom (blen t), i.take (blen t) with
    | some r, some m => .ok (r, m)
    | _, _ => .error .panic
  else .error (.error (PErr.fromErrorKind i .tag))

/-- `nom::bytes::complete::take_while`: never errors. For `/repo/src/parse.rs:193,308,364,510`. -/
def takeWhile (p : Char → Bool) : P Span := fun i =>
  match i.position (fun c => !p c) with
  | some n => orPanic (i.takeSplit n)
  | none => orPanic (i.takeSplit i.inputLen)

/-- `nom::bytes::complete::take_while1`. For `/repo/src/parse.rs:515`. -/
def takeWhile1 (p : Char → Bool) : P Span := fun i =>
  match i.position (fun c => !p c) with
  | some 0 => .error (.error (PErr.fromErrorKind i .takeWhile1))
  | some n => orPanic (i.takeSplit n)
  | none =>
    if i.inputLen = 0 then .error (.error (PErr.fromErrorKind i .takeWhile1))
    else orPanic (i.takeSplit i.inputLen)

/-- `nom::character::complete::one_of`. For `/repo/src/parse.rs:72`. -/
def oneOf (list : List Char) : P Char := fun i =>
  match i.frag with
  | c :: _ =>
    if list.contains c then
      match i.takeFrom c.utf8Size with
      | some r => .ok (r, c)
      | none => .error .panic
    else .error (.error (PErr.fromErrorKind i .oneOf))
  | [] => .error (.error (PErr.fromErrorKind i .oneOf))

/-- `nom::combinator::map`. For `/repo/src/parse.rs:361,505`. -/
def pmap {α β : Type} (p : P α) (f : α → β) : P β := fun i =>
  match p i with
  | .ok (r, a) => .ok (r, f a)
  | .error e => .error e

/-- `nom::combinator::map` over a parser with `&mut usize`. For `/repo/src/parse.rs:507,555`. -/
def pmapS {α β : Type} (p : PS α) (f : α → β) : PS β := fun i n =>
  match p i n with
  | (.ok (r, a), m) => (.ok (r, f a), m)
  | (.error e, m) => (.error e, m)

/-- `nom::combinator::verify`. For `/repo/src/parse.rs:363,509`. -/
def verify {α : Type} (p : P α) (f : α → Bool) : P α := fun i =>
  match p i with
  | .ok (r, a) => if f a then .ok (r, a) else .error (.error (PErr.fromErrorKind i .verify))
  | .error e => .error e

/-- `nom::combinator::peek`: the input is not consumed. For `/repo/src/parse.rs:155,264,423,433`. -/
def peek {α : Type} (p : P α) : P α := fun i =>
  match p i with
  | .ok (_, a) => .ok (i, a)
  | .error e => .error e

/-- `nom::branch::alt`, inner part after a first error `e`. For `/repo/src/parse.rs:360,504`. -/
def altGo {α : Type} (i : Span) : List (PS α) → PErr → Nat → IRes α × Nat
  | [], e, n => (.error (.error (PErr.append i .alt e)), n)
  | p :: ps, e, n =>
    match p i n with
    | (.error (.error e2), m) => altGo i ps (PErr.or e e2) m
    | r => r

/-- `nom::branch::alt` over a non-empty tuple of parsers sharing an `&mut usize`. For `/repo/src/parse.rs:504`. -/
def altS {α : Type} (p : PS α) (ps : List (PS α)) : PS α := fun i n =>
  match p i n with
  | (.error (.error e), m) => altGo i ps e m
  | r => r

/-- `nom::branch::alt` over a non-empty tuple of stateless parsers. For `/repo/src/parse.rs:360`. -/
def alt {α : Type} (p : P α) (ps : List (P α)) : P α := fun i =>
  (altS p.lift (ps.map P.lift) i 0).1

/-- The loop of `nom::multi::many1` after its first item (each item is pushed to the end of the `Vec`).
For `/repo/src/parse.rs:418`. -/
def many1Loop {α : Type} (p : P α) : Nat → Span → IRes (List α)
  | 0, _ => .error .diverge
  | fuel + 1, i =>
    match p i with
    | .error (.error _) => .ok (i, [])
    | .error e => .error e
    | .ok (i1, o) =>
      if i1.inputLen = i.inputLen then .error (.error (PErr.fromErrorKind i .many1))
      else
        match many1Loop p fuel i1 with
        | .ok (r, os) => .ok (r, o :: os)
        | .error e => .error e

/-- `nom::multi::many1`. The fuel allows one iteration per remaining byte plus one. For `/repo/src/parse.rs:418`. -/
def many1 {α : Type} (p : P α) : P (List α) := fun i =>
  match p i with
  | .error (.error e) => .error (.error (PErr.append i .many1 e))
  | .error e => .error e
  | .ok (i1, o) =>
    match many1Loop p (i1.inputLen + 1) i1 with
    | .ok (r, os) => .ok (r, o :: os)
    | .error e => .error e

/-- The loop of `nom::multi::many0` over a parser with `&mut usize`. For `/repo/src/parse.rs:555`. -/
def many0Loop {α : Type} (p : PS α) : Nat → Span → Nat → IRes (List α) × Nat
  | 0, _, n => (.error .diverge, n)
  | fuel + 1, i, n =>
    match p i n with
    | (.error (.error _), m) => (.ok (i, []), m)
    | (.error e, m) => (.error e, m)
    | (.ok (i1, o), m) =>
      if i1.inputLen = i.inputLen then (.error (.error (PErr.fromErrorKind i .many0)), m)
      else
        match many0Loop p fuel i1 m with
        | (.ok (r, os), k) => (.ok (r, o :: os), k)
        | (.error e, k) => (.error e, k)

/-- `nom::multi::many0`. For `/repo/src/parse.rs:555`. -/
def many0 {α : Type} (p : PS α) : PS (List α) := fun i n => many0Loop p (i.inputLen + 1) i n

/-- The loop of `nom::multi::separated_list1` after its first item. For `/repo/src/parse.rs:418`. -/
def sepLoop {α β : Type} (sep : P β) (p : P α) : Nat → Span → IRes (List α)
  | 0, _ => .error .diverge
  | fuel + 1, i =>
    match sep i with
    | .error (.error _) => .ok (i, [])
    | .error e => .error e
    | .ok (i1, _) =>
      match p i1 with
      | .error (.error _) => .ok (i, [])
      | .error e => .error e
      | .ok (i2, o) =>
        if i2.inputLen = i.inputLen then .error (.error (PErr.fromErrorKind i .separatedList))
        else
          match sepLoop sep p fuel i2 with
          | .ok (r, os) => .ok (r, o :: os)
          | .error e => .error e

/-- `nom::multi::separated_list1`. For `/repo/src/parse.rs:418`. -/
def separatedList1 {α β : Type} (sep : P β) (p : P α) : P (List α) := fun i =>
  match p i with
  | .error e => .error e
  | .ok (i1, o) =>
    match sepLoop sep p (i1.inputLen + 1) i1 with
    | .ok (r, os) => .ok (r, o :: os)
    | .error e => .error e

end CE
