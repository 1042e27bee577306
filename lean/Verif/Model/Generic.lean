import Verif.Model.Parse

/-!
# The parsers, generic in the type of the input

In `/repo/src/parse.rs` every parser is generic: `I: Clone + Display + Offset + Input + for<'s> Compare<&'s str>`, with
items which are characters (`<I as Input>::Item: AsChar`). `Model/Parse` is the instance at `Spanned<'s>`; here are the
parsers for an arbitrary type of inputs, line by line as in `Model/Nom`, `Model/Combinator`, `Model/Ast` and
`Model/Parse`. C63 relates the two.

Simplification: items are `char`s (an input with items of another type with `AsChar`, such as bytes, is not modelled).
-/

namespace CE.G

/-- The operations of `nom::Input`, `nom::Offset` and `nom::Compare<&str>` (external) which the crate calls. `none` models
a panic. For `/repo/src/parse.rs:65-69`. -/
class Input (I : Type) where
  /-- `Input::iter_elements`, as a list. For `/repo/src/parse.rs:153`. -/
  elements : I → List Char
  /-- `Input::input_len`. For `/repo/src/parse.rs:75`. -/
  inputLen : I → Nat
  /-- `Input::take`. For `/repo/src/parse.rs:78`. -/
  take : I → Nat → Option I
  /-- `Input::take_from`. For `/repo/src/combinator.rs:68`. -/
  takeFrom : I → Nat → Option I
  /-- `Input::take_split`: rest first. For `/repo/src/combinator.rs:115`. -/
  takeSplit : I → Nat → Option (I × I)
  /-- `Input::position`. For `/repo/src/parse.rs:193`. -/
  position : I → (Char → Bool) → Option Nat
  /-- `Input::slice_index`. For `/repo/src/parse.rs:78`. -/
  sliceIndex : I → Nat → Option Nat
  /-- `Offset::offset`. For `/repo/src/combinator.rs:114`. -/
  offsetTo : I → I → Option Nat
  /-- `Compare::compare(t) == CompareResult::Ok`. For `/repo/src/parse.rs:191`. -/
  compare : I → List Char → Bool

open Input

variable {I : Type} [Input I] {α β : Type}

/-! ## Results -/

/-- `parse::Error<Input>` (`/repo/src/parse.rs:559-697`). -/
inductive PErr (I : Type)
  | nestedParameter (s : I)
  | optionalInParameter (s : I)
  | unfinishedParameter (s : I)
  | nestedOptional (s : I)
  | parameterInOptional (s : I)
  | emptyOptional (s : I)
  | alternationInOptional (s : I)
  | unfinishedOptional (s : I)
  | emptyAlternation (s : I)
  | onlyOptionalInAlternation (s : I)
  | unescapedReservedCharacter (s : I)
  | escapedNonReservedCharacter (s : I)
  | escapedEndOfLine (s : I)
  | other (s : I) (k : ErrorKind)
  | needed (n : Needed)
  deriving DecidableEq, Repr

/-- `ParseError::from_error_kind` (`/repo/src/parse.rs:710-712`). -/
def PErr.fromErrorKind (i : I) (k : ErrorKind) : PErr I := .other i k

/-- `ParseError::append` (`/repo/src/parse.rs:714-720`). -/
def PErr.append (i : I) (k : ErrorKind) (e : PErr I) : PErr I :=
  match e with
  | .other _ _ => PErr.fromErrorKind i k
  | e => e

/-- `ParseError::or` (external default method): the later error wins. For `/repo/src/parse.rs:360,504`. -/
def PErr.or (_e1 e2 : PErr I) : PErr I := e2

/-- `nom::Err<parse::Error<I>>` (external), with `panic` and `diverge`. For `/repo/src/parse.rs:21`. -/
inductive Err (I : Type)
  | error (e : PErr I)
  | failure (e : PErr I)
  | incomplete (n : Needed)
  | panic
  | diverge
  deriving DecidableEq, Repr

/-- `nom::IResult<I, α, parse::Error<I>>`. For `/repo/src/parse.rs:21`. -/
abbrev IRes (I α : Type) := Except (Err I) (I × α)

/-- A stateless parser. For `/repo/src/parse.rs:140-143`. -/
abbrev P (I α : Type) := I → IRes I α

/-- A parser closing over an `&mut usize`. For `/repo/src/parse.rs:140-143`. -/
abbrev PS (I α : Type) := I → Nat → IRes I α × Nat

/-! ## `nom` -/

/-- A stateless parser as one which leaves the `&mut usize` alone. For `/repo/src/parse.rs:504-516`. -/
def P.lift (p : P I α) : PS I α := fun i n => (p i, n)

/-- A Rust operation that panics on `none`. For `/repo/src/parse.rs:78`. -/
def orPanic : Option α → Except (Err I) α
  | some a => .ok a
  | none => .error .panic

/-- `nom::bytes::complete::tag`. For `/repo/src/parse.rs:191,306,418`. -/
def tag (t : List Char) : P I I := fun i =>
  if compare i t then
    match takeFrom i (blen t), take i (blen t) with
    | some r, some m => .ok (r, m)
    | _, _ => .error .panic
  else .error (.error (PErr.fromErrorKind i .tag))

/-- `nom::bytes::complete::take_while`. For `/repo/src/parse.rs:193,308,364,510`. -/
def takeWhile (p : Char → Bool) : P I I := fun i =>
  match position i (fun c => !p c) with
  | some n => orPanic (takeSplit i n)
  | none => orPanic (takeSplit i (inputLen i))

/-- `nom::bytes::complete::take_while1`. For `/repo/src/parse.rs:515`. -/
def takeWhile1 (p : Char → Bool) : P I I := fun i =>
  match position i (fun c => !p c) with
  | some 0 => .error (.error (PErr.fromErrorKind i .takeWhile1))
  | some n => orPanic (takeSplit i n)
  | none =>
    if inputLen i = 0 then .error (.error (PErr.fromErrorKind i .takeWhile1))
    else orPanic (takeSplit i (inputLen i))

/-- `nom::character::complete::one_of`. For `/repo/src/parse.rs:72`. -/
def oneOf (list : List Char) : P I Char := fun i =>
  match elements i with
  | c :: _ =>
    if list.contains c then
      match takeFrom i c.utf8Size with
      | some r => .ok (r, c)
      | none => .error .panic
    else .error (.error (PErr.fromErrorKind i .oneOf))
  | [] => .error (.error (PErr.fromErrorKind i .oneOf))

/-- `nom::combinator::map`. For `/repo/src/parse.rs:361,505`. -/
def pmap (p : P I α) (f : α → β) : P I β := fun i =>
  match p i with
  | .ok (r, a) => .ok (r, f a)
  | .error e => .error e

/-- `nom::combinator::map` over a parser with `&mut usize`. For `/repo/src/parse.rs:507,555`. -/
def pmapS (p : PS I α) (f : α → β) : PS I β := fun i n =>
  match p i n with
  | (.ok (r, a), m) => (.ok (r, f a), m)
  | (.error e, m) => (.error e, m)

/-- `nom::combinator::verify`. For `/repo/src/parse.rs:363,509`. -/
def verify (p : P I α) (f : α → Bool) : P I α := fun i =>
  match p i with
  | .ok (r, a) => if f a then .ok (r, a) else .error (.error (PErr.fromErrorKind i .verify))
  | .error e => .error e

/-- `nom::combinator::peek`. For `/repo/src/parse.rs:155,264,423,433`. -/
def peek (p : P I α) : P I α := fun i =>
  match p i with
  | .ok (_, a) => .ok (i, a)
  | .error e => .error e

/-- `nom::branch::alt`, inner part after a first error `e`. For `/repo/src/parse.rs:360,504`. -/
def altGo (i : I) : List (PS I α) → PErr I → Nat → IRes I α × Nat
  | [], e, n => (.error (.error (PErr.append i .alt e)), n)
  | p :: ps, e, n =>
    match p i n with
    | (.error (.error e2), m) => altGo i ps (PErr.or e e2) m
    | r => r

/-- `nom::branch::alt` over parsers sharing an `&mut usize`. For `/repo/src/parse.rs:504`. -/
def altS (p : PS I α) (ps : List (PS I α)) : PS I α := fun i n =>
  match p i n with
  | (.error (.error e), m) => altGo i ps e m
  | r => r

/-- `nom::branch::alt` over stateless parsers. For `/repo/src/parse.rs:360`. -/
def alt (p : P I α) (ps : List (P I α)) : P I α := fun i =>
  (altS p.lift (ps.map P.lift) i 0).1

/-- The loop of `nom::multi::many1`. For `/repo/src/parse.rs:418`. -/
def many1Loop (p : P I α) : Nat → I → IRes I (List α)
  | 0, _ => .error .diverge
  | fuel + 1, i =>
    match p i with
    | .error (.error _) => .ok (i, [])
    | .error e => .error e
    | .ok (i1, o) =>
      if inputLen i1 = inputLen i then .error (.error (PErr.fromErrorKind i .many1))
      else
        match many1Loop p fuel i1 with
        | .ok (r, os) => .ok (r, o :: os)
        | .error e => .error e

/-- `nom::multi::many1`. For `/repo/src/parse.rs:418`. -/
def many1 (p : P I α) : P I (List α) := fun i =>
  match p i with
  | .error (.error e) => .error (.error (PErr.append i .many1 e))
  | .error e => .error e
  | .ok (i1, o) =>
    match many1Loop p (inputLen i1 + 1) i1 with
    | .ok (r, os) => .ok (r, o :: os)
    | .error e => .error e

/-- The loop of `nom::multi::many0` over a parser with `&mut usize`. For `/repo/src/parse.rs:555`. -/
def many0Loop (p : PS I α) : Nat → I → Nat → IRes I (List α) × Nat
  | 0, _, n => (.error .diverge, n)
  | fuel + 1, i, n =>
    match p i n with
    | (.error (.error _), m) => (.ok (i, []), m)
    | (.error e, m) => (.error e, m)
    | (.ok (i1, o), m) =>
      if inputLen i1 = inputLen i then (.error (.error (PErr.fromErrorKind i .many0)), m)
      else
        match many0Loop p fuel i1 m with
        | (.ok (r, os), k) => (.ok (r, o :: os), k)
        | (.error e, k) => (.error e, k)

/-- `nom::multi::many0`. For `/repo/src/parse.rs:555`. -/
def many0 (p : PS I α) : PS I (List α) := fun i n => many0Loop p (inputLen i + 1) i n

/-- The loop of `nom::multi::separated_list1`. For `/repo/src/parse.rs:418`. -/
def sepLoop (sep : P I β) (p : P I α) : Nat → I → IRes I (List α)
  | 0, _ => .error .diverge
  | fuel + 1, i =>
    match sep i with
    | .error (.error _) => .ok (i, [])
    | .error e => .error e
    | .ok (i1, _) =>
      match p i1 with
      | .error (.error _) => .ok (i, [])
      | .error e => .error e
      | .ok (i2, o) =>
        if inputLen i2 = inputLen i then .error (.error (PErr.fromErrorKind i .separatedList))
        else
          match sepLoop sep p fuel i2 with
          | .ok (r, os) => .ok (r, o :: os)
          | .error e => .error e

/-- `nom::multi::separated_list1`. For `/repo/src/parse.rs:418`. -/
def separatedList1 (sep : P I β) (p : P I α) : P I (List α) := fun i =>
  match p i with
  | .error e => .error e
  | .ok (i1, o) =>
    match sepLoop sep p (inputLen i1 + 1) i1 with
    | .ok (r, os) => .ok (r, o :: os)
    | .error e => .error e

/-! ## `/repo/src/combinator.rs` -/

/-- `combinator::map_err` (`/repo/src/combinator.rs:25-35`). -/
def mapErr (p : P I α) (g : Err I → Err I) : P I α := fun i =>
  match p i with
  | .ok r => .ok r
  | .error .panic => .error .panic
  | .error .diverge => .error .diverge
  | .error e => .error (g e)

/-- `Ok((input.take_from(input.input_len()), input))` (`/repo/src/combinator.rs:68,98-101,124`). -/
def okAll (input : I) : IRes I I :=
  match takeFrom input (inputLen input) with
  | some r => .ok (r, input)
  | none => .error .panic

/-- The `while` loop of `combinator::escaped0` (`/repo/src/combinator.rs:58-125`). -/
def escaped0Loop (normal : P I α) (control : Char) (escapable : P I β) (input : I) :
    Nat → I → Bool → IRes I I
  | 0, _, _ => .error .diverge
  | fuel + 1, i, consumedNothing =>
    if 0 < inputLen i then
      let arm2 : Unit → IRes I I := fun _ =>
        match elements i with
        | [] => .error (.error (PErr.fromErrorKind i .escaped))
        | nextChar :: _ =>
          if nextChar = control then
            let next := control.utf8Size
            if next ≥ inputLen i then
              .error (.error (PErr.fromErrorKind input .escaped))
            else
              match takeFrom i next with
              | none => .error .panic
              | some i' =>
                match escapable i' with
                | .ok (i2, _) =>
                  if inputLen i2 = 0 then okAll input
                  else escaped0Loop normal control escapable input fuel i2 false
                | .error .panic => .error .panic
                | .error .diverge => .error .diverge
                | .error _ => .error (.error (PErr.fromErrorKind i .escaped))
          else
            match offsetTo input i with
            | none => .error .panic
            | some index => orPanic (takeSplit input index)
      match normal i, consumedNothing with
      | .ok (i2, _), false =>
        if inputLen i2 = 0 then okAll input
        else if inputLen i2 = inputLen i then
          escaped0Loop normal control escapable input fuel i2 true
        else
          escaped0Loop normal control escapable input fuel i2 false
      | .ok _, true => arm2 ()
      | .error (.error _), _ => arm2 ()
      | .error e, _ => .error e
    else okAll input

/-- `combinator::escaped0` (`/repo/src/combinator.rs:47-126`). -/
def escaped0 (normal : P I α) (control : Char) (escapable : P I β) : P I I := fun input =>
  escaped0Loop normal control escapable input (2 * inputLen input + 2) input false

/-! ## `/repo/src/ast.rs` -/

/-- `Optional<Input>` (`/repo/src/ast.rs:150-157`). -/
structure Optional (I : Type) where
  input : I
  deriving DecidableEq, Repr

/-- `Parameter<Input>` (`/repo/src/ast.rs:159-178`). -/
structure Parameter (I : Type) where
  input : I
  id : Nat
  deriving DecidableEq, Repr

/-- `Alternative<Input>` (`/repo/src/ast.rs:135-148`). -/
inductive Alternative (I : Type)
  | optional (o : Optional I)
  | text (s : I)
  deriving DecidableEq, Repr

/-- `SingleAlternation<Input>` (`/repo/src/ast.rs:98-102`). -/
abbrev SingleAlternation (I : Type) := List (Alternative I)

/-- `Alternation<Input>` (`/repo/src/ast.rs:104-111`). -/
abbrev Alternation (I : Type) := List (SingleAlternation I)

/-- `SingleExpression<Input>` (`/repo/src/ast.rs:63-96`). -/
inductive SingleExpression (I : Type)
  | alternation (a : Alternation I)
  | optional (o : Optional I)
  | parameter (p : Parameter I)
  | text (s : I)
  | whitespaces (s : I)
  deriving DecidableEq, Repr

/-- `Expression<Input>` (`/repo/src/ast.rs:28-34`). -/
abbrev Expression (I : Type) := List (SingleExpression I)

/-- The summand of `Alternation::span_len` (`/repo/src/ast.rs:118-121`). -/
def Alternative.spanLen : Alternative I → Nat
  | .text t => inputLen t
  | .optional o => inputLen o.input + 2

/-- `Alternation::span_len` (`/repo/src/ast.rs:113-125`). -/
def Alternation.spanLen (a : Alternation I) : Option Nat :=
  let total := ((a.flatten).map Alternative.spanLen).sum + a.length
  if total = 0 then none else some (total - 1)

/-- `matches!(alt, Alternative::Optional(_))` (`/repo/src/ast.rs:131`). -/
def Alternative.isOptional : Alternative I → Bool
  | .optional _ => true
  | .text _ => false

/-- `Alternation::contains_only_optional` (`/repo/src/ast.rs:127-133`). -/
def Alternation.containsOnlyOptional (a : Alternation I) : Bool :=
  a.any (fun single => single.all Alternative.isOptional)

/-! ## `/repo/src/parse.rs` -/

/-- `Error::failure` applied to `Error::X(inp.take(n))` (`/repo/src/parse.rs:704-706` and its uses). -/
def failTake (inp : I) (n : Nat) (f : I → PErr I) : Err I :=
  match take inp n with
  | some s => .failure (f s)
  | none => .panic

/-- The closure given to `map_err` in `escaped_reserved_chars0` (`/repo/src/parse.rs:73-86`). -/
def escapedErr (e : Err I) : Err I :=
  match e with
  | .error (.other span .escaped) =>
    match inputLen span with
    | 1 => .failure (.escapedEndOfLine span)
    | n =>
      if n > 1 then
        failTake span ((sliceIndex span 2).getD 0) .escapedNonReservedCharacter
      else .failure (.escapedNonReservedCharacter span)
  | e => e

/-- `escaped_reserved_chars0` (`/repo/src/parse.rs:61-88`). -/
def escapedReservedChars0 (normal : P I α) : P I I :=
  mapErr (escaped0 normal '\\' (oneOf RESERVED_CHARS)) escapedErr

/-- `if let Ok(x) = r { return k(x) } els`, for error reporting. For `/repo/src/parse.rs:155-169`. -/
def ifOk (r : Except (Err I) α) (k : α → Err I) (els : Err I) : Err I :=
  match r with
  | .ok a => k a
  | .error .panic => .panic
  | .error .diverge => .diverge
  | .error _ => els

/-- The tuple parser of `/repo/src/parse.rs:155-161` and `264-268`, under `peek`. -/
def nestedTuple (p : P I α) (cls : Char → Bool) (close : List Char) (inp : I) : Except (Err I) α := do
  let (i1, a) ← p inp
  let (i2, _) ← escapedReservedChars0 (takeWhile cls) i1
  let (_, _) ← tag close i2
  pure a

/-- The closure `fail` of `parameter` (`/repo/src/parse.rs:152-189`). -/
def parameterFail (par : PS I (Parameter I)) (opt : P I (Optional I)) (inp openingBrace : I) : Err I :=
  match (elements inp).head? with
  | some '{' =>
    ifOk (nestedTuple (fun i => (par i 0).1) isName ['}'] inp)
      (fun p => failTake inp (inputLen p.input + 2) .nestedParameter)
      (failTake inp 1 .unescapedReservedCharacter)
  | some '(' =>
    ifOk (peek opt inp)
      (fun o => failTake inp (inputLen o.2.input + 2) .optionalInParameter)
      (failTake inp 1 .unescapedReservedCharacter)
  | some c =>
    if RESERVED_CHARS.contains c then failTake inp 1 .unescapedReservedCharacter
    else .failure (.unfinishedParameter openingBrace)
  | none => .failure (.unfinishedParameter openingBrace)

/-- The closure `fail` of `optional` (`/repo/src/parse.rs:261-303`). -/
def optionalFail (par : PS I (Parameter I)) (opt : P I (Optional I)) (inp openingParen : I) : Err I :=
  match (elements inp).head? with
  | some '(' =>
    ifOk (nestedTuple opt isInOptional [')'] inp)
      (fun o => failTake inp (inputLen o.input + 2) .nestedOptional)
      (failTake inp 1 .unescapedReservedCharacter)
  | some '{' =>
    ifOk (peek (fun i => (par i 0).1) inp)
      (fun p => failTake inp (inputLen p.2.input + 2) .parameterInOptional)
      (failTake inp 1 .unescapedReservedCharacter)
  | some '/' => failTake inp 1 .alternationInOptional
  | some c =>
    if RESERVED_CHARS.contains c then failTake inp 1 .unescapedReservedCharacter
    else .failure (.unfinishedOptional openingParen)
  | none => .failure (.unfinishedOptional openingParen)

mutual

/-- `parameter` (`/repo/src/parse.rs:138-200`) with a bound on the depth of recursive calls. -/
def parameterF : Nat → I → Nat → IRes I (Parameter I) × Nat
  | 0, _, indexer => (.error .diverge, indexer)
  | fuel + 1, input, indexer =>
    match tag ['{'] input with
    | .error e => (.error e, indexer)
    | .ok (input, openingBrace) =>
      match escapedReservedChars0 (takeWhile isName) input with
      | .error e => (.error e, indexer)
      | .ok (input, parName) =>
        match mapErr (tag ['}'])
            (fun _ => parameterFail (parameterF fuel) (optionalF fuel) input openingBrace) input with
        | .error e => (.error e, indexer)
        | .ok (input, _) => (.ok (input, ⟨parName, indexer + 1 - 1⟩), indexer + 1)

/-- `optional` (`/repo/src/parse.rs:250-318`) with a bound on the depth of recursive calls. -/
def optionalF : Nat → I → IRes I (Optional I)
  | 0, _ => .error .diverge
  | fuel + 1, originalInput =>
    match tag ['('] originalInput with
    | .error e => .error e
    | .ok (input, openingParen) =>
      match escapedReservedChars0 (takeWhile isInOptional) input with
      | .error e => .error e
      | .ok (input, opt) =>
        match mapErr (tag [')'])
            (fun _ => optionalFail (parameterF fuel) (optionalF fuel) input openingParen) input with
        | .error e => .error e
        | .ok (input, _) =>
          if inputLen opt = 0 then .error (failTake originalInput 2 .emptyOptional)
          else .ok (input, ⟨opt⟩)

end

/-- `parse::parameter` (`/repo/src/parse.rs:138-200`). -/
def parameter : PS I (Parameter I) := fun input indexer => parameterF (inputLen input + 1) input indexer

/-- `parse::optional` (`/repo/src/parse.rs:250-318`). -/
def optional : P I (Optional I) := fun input => optionalF (inputLen input + 1) input

/-- The parser of text (`/repo/src/parse.rs:363-366` and `509-512`). -/
def textParser : P I I :=
  verify (escapedReservedChars0 (takeWhile isWithoutWhitespace)) (fun s => decide (inputLen s > 0))

/-- `parse::alternative` (`/repo/src/parse.rs:349-371`). -/
def alternative : P I (Alternative I) :=
  alt (pmap optional .optional) [pmap textParser .text]

/-- The `match` of `parse::alternation` (`/repo/src/parse.rs:418-438`). -/
def alternationHead (input : I) : IRes I (Alternation I) :=
  match separatedList1 (tag ['/']) (many1 alternative) input with
  | .ok (rest, alt) =>
    match peek (tag ['/']) rest with
    | .ok (_, slash) => .error (.failure (.emptyAlternation slash))
    | .error .panic => .error .panic
    | .error .diverge => .error .diverge
    | .error _ =>
      if alt.length = 1 then .error (.error (.other rest .tag))
      else .ok (rest, alt)
  | .error (.error (.other sp .many1)) =>
    match peek (tag ['/']) sp with
    | .ok _ => .error (failTake sp 1 .emptyAlternation)
    | .error .panic => .error .panic
    | .error .diverge => .error .diverge
    | .error _ => .error (.error (.other sp .many1))
  | .error e => .error e

/-- `parse::alternation` (`/repo/src/parse.rs:410-448`). -/
def alternation : P I (Alternation I) := fun originalInput =>
  match alternationHead originalInput with
  | .error e => .error e
  | .ok (rest, alt) =>
    if Alternation.containsOnlyOptional alt then
      match Alternation.spanLen alt with
      | none => .error .panic
      | some n => .error (failTake originalInput n .onlyOptionalInAlternation)
    else .ok (rest, alt)

/-- `parse::single_expression` (`/repo/src/parse.rs:487-518`). -/
def singleExpression : PS I (SingleExpression I) :=
  altS (P.lift (pmap alternation .alternation))
    [ P.lift (pmap optional .optional),
      pmapS parameter .parameter,
      P.lift (pmap textParser .text),
      P.lift (pmap (takeWhile1 isWhitespace) .whitespaces) ]

/-- `parse::expression` (`/repo/src/parse.rs:547-557`). -/
def expression : P I (Expression I) := fun input => (many0 singleExpression input 0).1

/-! ## Inputs -/

/-- `Spanned<'s>` (`/repo/src/ast.rs:25-26`), as in `Model/Span`. -/
instance : Input Span where
  elements s := s.frag
  inputLen := Span.inputLen
  take := Span.take
  takeFrom := Span.takeFrom
  takeSplit := Span.takeSplit
  position := Span.position
  sliceIndex := Span.sliceIndex
  offsetTo := Span.offsetTo
  compare s t := t.isPrefixOf s.frag

/-- A plain `&str` (external `nom::Input for &str`): where it starts in memory, and its text. For
`/repo/src/parse.rs:138-143` at `I = &str`. -/
structure Str where
  addr : Nat
  text : List Char
  deriving DecidableEq, Repr

/-- The operations of `nom` on `&str` (external): slices keep pointing into the same memory, `Offset::offset` is the
difference of the pointers. For `/repo/src/parse.rs:138-143` at `I = &str`. -/
instance : Input Str where
  elements s := s.text
  inputLen s := blen s.text
  take s n := (splitBytes n s.text).map fun ab => ⟨s.addr, ab.1⟩
  takeFrom s n := (splitBytes n s.text).map fun ab => ⟨s.addr + n, ab.2⟩
  takeSplit s n := (splitBytes n s.text).map fun ab => (⟨s.addr + n, ab.2⟩, ⟨s.addr, ab.1⟩)
  position s q := Span.positionL q s.text
  sliceIndex s n := Span.sliceIndexL n s.text
  offsetTo s s' := if s.addr ≤ s'.addr then some (s'.addr - s.addr) else none
  compare s t := t.isPrefixOf s.text

/-- `LocatedSpan<&str, X>` (external `nom_locate`): a span with extra data of the user. For `/repo/src/ast.rs:26`. -/
structure Located (X : Type) where
  span : Span
  extra : X
  deriving DecidableEq, Repr

/-- The operations on spans with extra data (external): slices copy the data. For `/repo/src/ast.rs:26`. -/
instance {X : Type} : Input (Located X) where
  elements s := s.span.frag
  inputLen s := s.span.inputLen
  take s n := (s.span.take n).map fun t => ⟨t, s.extra⟩
  takeFrom s n := (s.span.takeFrom n).map fun t => ⟨t, s.extra⟩
  takeSplit s n := (s.span.takeSplit n).map fun rt => (⟨rt.1, s.extra⟩, ⟨rt.2, s.extra⟩)
  position s q := s.span.position q
  sliceIndex s n := s.span.sliceIndex n
  offsetTo s s' := s.span.offsetTo s'.span
  compare s t := t.isPrefixOf s.span.frag

end CE.G
