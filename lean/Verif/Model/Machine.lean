import Verif.Model.Parse

/-!
# The parser on a machine: fixed-width counters, and the work done

The model of `Verif.Model.Span` … `Verif.Model.Parse` counts with unbounded naturals and does not say how long anything
takes.  Here the same functions are written once more, line by line, with

* **fixed-width arithmetic**: every `+` on a `usize` (byte offsets, lengths, the parameter counter) and on a `u32` (line
  numbers) is checked, and panics when the result does not fit, as Rust does with overflow checks on;
* **a meter**: every primitive operation adds the number of bytes it looks at, plus one.

The meter charges: `take_from(n)`: `n + 1` (the newlines of the skipped bytes are counted, `LocatedSpan::slice_by`);
`take(n)`: 1; `position`: the bytes before the hit, plus one; comparing with a tag: the length of the tag, plus one;
`one_of`: the length of its list, plus one; `slice_index(n)`: `n + 1`; walking an alternation: its number of pieces and
branches; one per iteration of a loop and per alternative tried.  `input_len`, comparisons of numbers, constructing
values and pushing to a `Vec` are free (pushes are amortised by the iteration that makes them).
-/

namespace CE

/-- The largest values of `usize` and `u32` (`/repo/src/ast.rs:26`: `LocatedSpan` stores a `usize` offset and a `u32`
line; `/repo/src/parse.rs:140`: the counter of parameters is a `usize`). -/
structure Machine where
  usizeMax : Nat
  u32Max : Nat

/-- A 64-bit target. For `/repo/src/ast.rs:26`. -/
def Machine.bits64 : Machine := ⟨2 ^ 64 - 1, 2 ^ 32 - 1⟩

/-- A result together with the work done to get it. For `/repo/src/parse.rs:138-556`. -/
structure Metered (β : Type) where
  res : β
  cost : Nat

instance : Monad Metered where
  pure b := ⟨b, 0⟩
  bind m f := ⟨(f m.res).res, m.cost + (f m.res).cost⟩

/-- Charge `n` for a step of the parser, `/repo/src/parse.rs`. -/
def tick (n : Nat) : Metered Unit := ⟨(), n⟩

/-- A metered parser, as `P`. For `/repo/src/parse.rs:140-143`. -/
abbrev MP (α : Type) := Span → Metered (IRes α)

/-- A metered parser with an `&mut usize`, as `PS`. For `/repo/src/parse.rs:140-143`. -/
abbrev MPS (α : Type) := Span → Nat → Metered (IRes α × Nat)

namespace Machine

variable (K : Machine)

/-- `a + b` on `usize`, `none` being the overflow panic. For `/repo/src/parse.rs:165,196`, `/repo/src/ast.rs:120-123`. -/
def add (a b : Nat) : Option Nat := if a + b ≤ K.usizeMax then some (a + b) else none

/-! ## Spans: as `Verif.Model.Span` -/

/-- `Input::take_from(n)` (`LocatedSpan::slice_by`): the offset advances by `n` (a `usize` addition), the line by the
number of newlines skipped, which is first truncated to a `u32` (`as u32`) and then added.
Called at `/repo/src/combinator.rs:68,93,98,124`. -/
def takeFrom (s : Span) (n : Nat) : Metered (Option Span) :=
  match splitBytes n s.frag with
  | some (a, b) =>
    let lines := nlCount a % (K.u32Max + 1)
    ⟨if s.offset + n ≤ K.usizeMax ∧ s.line + lines ≤ K.u32Max then some ⟨s.offset + n, s.line + lines, b⟩ else none,
      n + 1⟩
  | none => ⟨none, 1⟩

/-- `Input::take(n)`. Called at `/repo/src/parse.rs:78,165,169,175,...`. -/
def take (s : Span) (n : Nat) : Metered (Option Span) := ⟨s.take n, 1⟩

/-- `Input::take_split(n)`. Called at `/repo/src/combinator.rs:115`. -/
def takeSplit (s : Span) (n : Nat) : Metered (Option (Span × Span)) := do
  let r ← K.takeFrom s n
  let t ← take s n
  match r, t with
  | some r, some t => pure (some (r, t))
  | _, _ => pure none

/-- `Input::position`. For `/repo/src/parse.rs:193`. -/
def position (s : Span) (q : Char → Bool) : Metered (Option Nat) :=
  ⟨s.position q, (s.position q).getD s.inputLen + 1⟩

/-! ## Combinators: as `Verif.Model.Nom` -/

/-- `tag`, as `CE.tag`. For `/repo/src/parse.rs:191,306,418`. -/
def tag (t : List Char) : MP Span := fun i => do
  tick (blen t + 1)
  if t.isPrefixOf i.frag then
    let r ← K.takeFrom i (blen t)
    let m ← take i (blen t)
    match r, m with
    | some r, some m => pure (.ok (r, m))
    | _, _ => pure (.error .panic)
  else pure (.error (.error (PErr.fromErrorKind i .tag)))

/-- `take_while`, as `CE.takeWhile`. For `/repo/src/parse.rs:193,308,364,510`. -/
def takeWhile (p : Char → Bool) : MP Span := fun i => do
  match ← position i (fun c => !p c) with
  | some n => return orPanic (← K.takeSplit i n)
  | none => return orPanic (← K.takeSplit i i.inputLen)

/-- `take_while1`, as `CE.takeWhile1`. For `/repo/src/parse.rs:515`. -/
def takeWhile1 (p : Char → Bool) : MP Span := fun i => do
  match ← position i (fun c => !p c) with
  | some 0 => pure (.error (.error (PErr.fromErrorKind i .takeWhile1)))
  | some n => return orPanic (← K.takeSplit i n)
  | none =>
    if i.inputLen = 0 then pure (.error (.error (PErr.fromErrorKind i .takeWhile1)))
    else return orPanic (← K.takeSplit i i.inputLen)

/-- `one_of`, as `CE.oneOf`. For `/repo/src/parse.rs:72`. -/
def oneOf (list : List Char) : MP Char := fun i => do
  tick (list.length + 1)
  match i.frag with
  | c :: _ =>
    if list.contains c then
      match ← K.takeFrom i c.utf8Size with
      | some r => pure (.ok (r, c))
      | none => pure (.error .panic)
    else pure (.error (.error (PErr.fromErrorKind i .oneOf)))
  | [] => pure (.error (.error (PErr.fromErrorKind i .oneOf)))

/-- `map`, as `CE.pmap`. For `/repo/src/parse.rs:361,505`. -/
def pmap {α β : Type} (p : MP α) (f : α → β) : MP β := fun i => do
  match ← p i with
  | .ok (r, a) => pure (.ok (r, f a))
  | .error e => pure (.error e)

/-- `map` over a parser with `&mut usize`, as `CE.pmapS`. For `/repo/src/parse.rs:507,555`. -/
def pmapS {α β : Type} (p : MPS α) (f : α → β) : MPS β := fun i n => do
  match ← p i n with
  | (.ok (r, a), m) => pure (.ok (r, f a), m)
  | (.error e, m) => pure (.error e, m)

/-- A stateless parser beside an `&mut usize`, as `CE.P.lift`. For `/repo/src/parse.rs:504-516`. -/
def lift {α : Type} (p : MP α) : MPS α := fun i n => do return (← p i, n)

/-- `verify`, as `CE.verify`. For `/repo/src/parse.rs:363,509`. -/
def verify {α : Type} (p : MP α) (f : α → Bool) : MP α := fun i => do
  match ← p i with
  | .ok (r, a) => if f a then pure (.ok (r, a)) else pure (.error (.error (PErr.fromErrorKind i .verify)))
  | .error e => pure (.error e)

/-- `peek`, as `CE.peek`. For `/repo/src/parse.rs:155,264,423,433`. -/
def peek {α : Type} (p : MP α) : MP α := fun i => do
  match ← p i with
  | .ok (_, a) => pure (.ok (i, a))
  | .error e => pure (.error e)

/-- `alt` after a first error, as `CE.altGo`. For `/repo/src/parse.rs:360,504`. -/
def altGo {α : Type} (i : Span) : List (MPS α) → PErr → Nat → Metered (IRes α × Nat)
  | [], e, n => pure (.error (.error (PErr.append i .alt e)), n)
  | p :: ps, e, n => do
    tick 1
    match ← p i n with
    | (.error (.error e2), m) => altGo i ps (PErr.or e e2) m
    | r => pure r

/-- `alt`, as `CE.altS`. For `/repo/src/parse.rs:504`. -/
def altS {α : Type} (p : MPS α) (ps : List (MPS α)) : MPS α := fun i n => do
  tick 1
  match ← p i n with
  | (.error (.error e), m) => altGo i ps e m
  | r => pure r

/-- `alt` over stateless parsers, as `CE.alt`. For `/repo/src/parse.rs:360`. -/
def alt {α : Type} (p : MP α) (ps : List (MP α)) : MP α := fun i => do
  return (← altS (lift p) (ps.map lift) i 0).1

/-- The loop of `many1`, as `CE.many1Loop`. For `/repo/src/parse.rs:418`. -/
def many1Loop {α : Type} (p : MP α) : Nat → Span → Metered (IRes (List α))
  | 0, _ => pure (.error .diverge)
  | fuel + 1, i => do
    tick 1
    match ← p i with
    | .error (.error _) => pure (.ok (i, []))
    | .error e => pure (.error e)
    | .ok (i1, o) =>
      if i1.inputLen = i.inputLen then pure (.error (.error (PErr.fromErrorKind i .many1)))
      else
        match ← many1Loop p fuel i1 with
        | .ok (r, os) => pure (.ok (r, o :: os))
        | .error e => pure (.error e)

/-- `many1`, as `CE.many1`. For `/repo/src/parse.rs:418`. -/
def many1 {α : Type} (p : MP α) : MP (List α) := fun i => do
  tick 1
  match ← p i with
  | .error (.error e) => pure (.error (.error (PErr.append i .many1 e)))
  | .error e => pure (.error e)
  | .ok (i1, o) =>
    match ← many1Loop p (i1.inputLen + 1) i1 with
    | .ok (r, os) => pure (.ok (r, o :: os))
    | .error e => pure (.error e)

/-- The loop of `many0`, as `CE.many0Loop`. For `/repo/src/parse.rs:555`. -/
def many0Loop {α : Type} (p : MPS α) : Nat → Span → Nat → Metered (IRes (List α) × Nat)
  | 0, _, n => pure (.error .diverge, n)
  | fuel + 1, i, n => do
    tick 1
    match ← p i n with
    | (.error (.error _), m) => pure (.ok (i, []), m)
    | (.error e, m) => pure (.error e, m)
    | (.ok (i1, o), m) =>
      if i1.inputLen = i.inputLen then pure (.error (.error (PErr.fromErrorKind i .many0)), m)
      else
        match ← many0Loop p fuel i1 m with
        | (.ok (r, os), k) => pure (.ok (r, o :: os), k)
        | (.error e, k) => pure (.error e, k)

/-- `many0`, as `CE.many0`. For `/repo/src/parse.rs:555`. -/
def many0 {α : Type} (p : MPS α) : MPS (List α) := fun i n => many0Loop p (i.inputLen + 1) i n

/-- The loop of `separated_list1`, as `CE.sepLoop`. For `/repo/src/parse.rs:418`. -/
def sepLoop {α β : Type} (sep : MP β) (p : MP α) : Nat → Span → Metered (IRes (List α))
  | 0, _ => pure (.error .diverge)
  | fuel + 1, i => do
    tick 1
    match ← sep i with
    | .error (.error _) => pure (.ok (i, []))
    | .error e => pure (.error e)
    | .ok (i1, _) =>
      match ← p i1 with
      | .error (.error _) => pure (.ok (i, []))
      | .error e => pure (.error e)
      | .ok (i2, o) =>
        if i2.inputLen = i.inputLen then pure (.error (.error (PErr.fromErrorKind i .separatedList)))
        else
          match ← sepLoop sep p fuel i2 with
          | .ok (r, os) => pure (.ok (r, o :: os))
          | .error e => pure (.error e)

/-- `separated_list1`, as `CE.separatedList1`. For `/repo/src/parse.rs:418`. -/
def separatedList1 {α β : Type} (sep : MP β) (p : MP α) : MP (List α) := fun i => do
  match ← p i with
  | .error e => pure (.error e)
  | .ok (i1, o) =>
    match ← sepLoop sep p (i1.inputLen + 1) i1 with
    | .ok (r, os) => pure (.ok (r, o :: os))
    | .error e => pure (.error e)

/-! ## `/repo/src/combinator.rs`: as `Verif.Model.Combinator` -/

/-- `combinator::map_err` (`/repo/src/combinator.rs:25-35`), as `CE.mapErr`. -/
def mapErr {α : Type} (p : MP α) (g : Err → Metered Err) : MP α := fun i => do
  match ← p i with
  | .ok r => pure (.ok r)
  | .error .panic => pure (.error .panic)
  | .error .diverge => pure (.error .diverge)
  | .error e => return .error (← g e)

/-- `Ok((input.take_from(input.input_len()), input))` (`/repo/src/combinator.rs:68,98-101,124`), as `CE.okAll`. -/
def okAll (input : Span) : Metered (IRes Span) := do
  match ← K.takeFrom input input.inputLen with
  | some r => pure (.ok (r, input))
  | none => pure (.error .panic)

/-- The arm `(Ok(..), true) | (Err(Err::Error(_)), _)` of the loop of `combinator::escaped0`
(`/repo/src/combinator.rs:75-117`), the rest of the loop being `again`; as in `CE.escaped0Loop`. -/
def escaped0Arm {β : Type} (control : Char) (escapable : MP β) (input i : Span)
    (again : Span → Bool → Metered (IRes Span)) : Metered (IRes Span) := do
  tick 1
  match i.frag with
  | [] => pure (.error (.error (PErr.fromErrorKind i .escaped)))
  | nextChar :: _ =>
    if nextChar = control then
      let next := control.utf8Size
      if next ≥ i.inputLen then
        pure (.error (.error (PErr.fromErrorKind input .escaped)))
      else
        match ← K.takeFrom i next with
        | none => pure (.error .panic)
        | some i' =>
          match ← escapable i' with
          | .ok (i2, _) =>
            if i2.inputLen = 0 then K.okAll input
            else again i2 false
          | .error .panic => pure (.error .panic)
          | .error .diverge => pure (.error .diverge)
          | .error _ => pure (.error (.error (PErr.fromErrorKind i .escaped)))
    else
      match input.offsetTo i with
      | none => pure (.error .panic)
      | some index => return orPanic (← K.takeSplit input index)

/-- The `while` loop of `combinator::escaped0` (`/repo/src/combinator.rs:58-125`), as `CE.escaped0Loop`. -/
def escaped0Loop {α β : Type} (normal : MP α) (control : Char) (escapable : MP β) (input : Span) :
    Nat → Span → Bool → Metered (IRes Span)
  | 0, _, _ => pure (.error .diverge)
  | fuel + 1, i, consumedNothing => do
    tick 1
    if 0 < i.inputLen then
      match ← normal i, consumedNothing with
      | .ok (i2, _), false =>
        if i2.inputLen = 0 then K.okAll input
        else if i2.inputLen = i.inputLen then
          escaped0Loop normal control escapable input fuel i2 true
        else
          escaped0Loop normal control escapable input fuel i2 false
      | .ok _, true => K.escaped0Arm control escapable input i (escaped0Loop normal control escapable input fuel)
      | .error (.error _), _ =>
        K.escaped0Arm control escapable input i (escaped0Loop normal control escapable input fuel)
      | .error e, _ => pure (.error e)
    else K.okAll input

/-- `combinator::escaped0` (`/repo/src/combinator.rs:47-126`), as `CE.escaped0`. -/
def escaped0 {α β : Type} (normal : MP α) (control : Char) (escapable : MP β) : MP Span := fun input =>
  K.escaped0Loop normal control escapable input (2 * input.inputLen + 2) input false

/-! ## `/repo/src/parse.rs`: as `Verif.Model.Parse` -/

/-- `Error::failure` applied to `Error::X(inp.take(n))` (`/repo/src/parse.rs:704-706` and its uses), as `CE.failTake`. -/
def failTake (inp : Span) (n : Nat) (f : Span → PErr) : Metered Err := do
  match ← take inp n with
  | some s => pure (.failure (f s))
  | none => pure .panic

/-- The same with a length `a + b` to be computed first (`/repo/src/parse.rs:165,176,275,285`). -/
def failTakeAdd (inp : Span) (a b : Nat) (f : Span → PErr) : Metered Err :=
  match K.add a b with
  | some n => failTake inp n f
  | none => pure .panic

/-- The closure given to `map_err` in `escaped_reserved_chars0` (`/repo/src/parse.rs:73-86`), as `CE.escapedErr`. -/
def escapedErr (e : Err) : Metered Err :=
  match e with
  | .error (.other span .escaped) =>
    match span.inputLen with
    | 1 => pure (.failure (.escapedEndOfLine span))
    | n => do
      if n > 1 then
        tick 3
        failTake span ((span.sliceIndex 2).getD 0) .escapedNonReservedCharacter
      else pure (.failure (.escapedNonReservedCharacter span))
  | e => pure e

/-- `escaped_reserved_chars0` (`/repo/src/parse.rs:61-88`), as `CE.escapedReservedChars0`. -/
def escapedReservedChars0 {α : Type} (normal : MP α) : MP Span :=
  mapErr (K.escaped0 normal '\\' (K.oneOf RESERVED_CHARS)) escapedErr

/-- `if let Ok(x) = r { return k(x) } els`, as `CE.ifOk`. For `/repo/src/parse.rs:155-169`. -/
def ifOk {α : Type} (r : Metered (Except Err α)) (k : α → Metered Err) (els : Metered Err) : Metered Err := do
  match ← r with
  | .ok a => k a
  | .error .panic => pure .panic
  | .error .diverge => pure .diverge
  | .error _ => els

/-- The tuple parser under `peek` of `/repo/src/parse.rs:155-161` and `264-268`, as `CE.nestedTuple`. -/
def nestedTuple {α : Type} (p : MP α) (cls : Char → Bool) (close : List Char) (inp : Span) :
    Metered (Except Err α) := do
  match ← p inp with
  | .error e => pure (.error e)
  | .ok (i1, a) =>
    match ← K.escapedReservedChars0 (K.takeWhile cls) i1 with
    | .error e => pure (.error e)
    | .ok (i2, _) =>
      match ← K.tag close i2 with
      | .error e => pure (.error e)
      | .ok (_, _) => pure (.ok a)

/-- The closure `fail` of `parameter` (`/repo/src/parse.rs:152-189`), as `CE.parameterFail`. -/
def parameterFail (par : MPS Parameter) (opt : MP Optional) (inp openingBrace : Span) : Metered Err := do
  tick 1
  match inp.frag.head? with
  | some '{' =>
    ifOk (K.nestedTuple (fun i => do return (← par i 0).1) isName ['}'] inp)
      (fun p => K.failTakeAdd inp p.input.inputLen 2 .nestedParameter)
      (failTake inp 1 .unescapedReservedCharacter)
  | some '(' =>
    ifOk (peek opt inp)
      (fun o => K.failTakeAdd inp o.2.input.inputLen 2 .optionalInParameter)
      (failTake inp 1 .unescapedReservedCharacter)
  | some c =>
    if RESERVED_CHARS.contains c then failTake inp 1 .unescapedReservedCharacter
    else pure (.failure (.unfinishedParameter openingBrace))
  | none => pure (.failure (.unfinishedParameter openingBrace))

/-- The closure `fail` of `optional` (`/repo/src/parse.rs:261-303`), as `CE.optionalFail`. -/
def optionalFail (par : MPS Parameter) (opt : MP Optional) (inp openingParen : Span) : Metered Err := do
  tick 1
  match inp.frag.head? with
  | some '(' =>
    ifOk (K.nestedTuple opt isInOptional [')'] inp)
      (fun o => K.failTakeAdd inp o.input.inputLen 2 .nestedOptional)
      (failTake inp 1 .unescapedReservedCharacter)
  | some '{' =>
    ifOk (peek (fun i => do return (← par i 0).1) inp)
      (fun p => K.failTakeAdd inp p.2.input.inputLen 2 .parameterInOptional)
      (failTake inp 1 .unescapedReservedCharacter)
  | some '/' => failTake inp 1 .alternationInOptional
  | some c =>
    if RESERVED_CHARS.contains c then failTake inp 1 .unescapedReservedCharacter
    else pure (.failure (.unfinishedOptional openingParen))
  | none => pure (.failure (.unfinishedOptional openingParen))

mutual

/-- `parameter` (`/repo/src/parse.rs:138-200`), as `CE.parameterF`; `*indexer += 1` is a `usize` addition. -/
def parameterF : Nat → Span → Nat → Metered (IRes Parameter × Nat)
  | 0, _, indexer => pure (.error .diverge, indexer)
  | fuel + 1, input, indexer => do
    match ← K.tag ['{'] input with
    | .error e => pure (.error e, indexer)
    | .ok (input, openingBrace) =>
      match ← K.escapedReservedChars0 (K.takeWhile isName) input with
      | .error e => pure (.error e, indexer)
      | .ok (input, parName) =>
        match ← mapErr (K.tag ['}'])
            (fun _ => K.parameterFail (parameterF fuel) (optionalF fuel) input openingBrace) input with
        | .error e => pure (.error e, indexer)
        | .ok (input, _) =>
          match K.add indexer 1 with
          | none => pure (.error .panic, indexer)
          | some next => pure (.ok (input, ⟨parName, next - 1⟩), next)

/-- `optional` (`/repo/src/parse.rs:250-318`), as `CE.optionalF`. -/
def optionalF : Nat → Span → Metered (IRes Optional)
  | 0, _ => pure (.error .diverge)
  | fuel + 1, originalInput => do
    match ← K.tag ['('] originalInput with
    | .error e => pure (.error e)
    | .ok (input, openingParen) =>
      match ← K.escapedReservedChars0 (K.takeWhile isInOptional) input with
      | .error e => pure (.error e)
      | .ok (input, opt) =>
        match ← mapErr (K.tag [')'])
            (fun _ => K.optionalFail (parameterF fuel) (optionalF fuel) input openingParen) input with
        | .error e => pure (.error e)
        | .ok (input, _) =>
          if opt.inputLen = 0 then return .error (← failTake originalInput 2 .emptyOptional)
          else pure (.ok (input, ⟨opt⟩))

end

/-- `parse::parameter` (`/repo/src/parse.rs:138-200`). -/
def parameter : MPS Parameter := fun input indexer => K.parameterF (input.inputLen + 1) input indexer

/-- `parse::optional` (`/repo/src/parse.rs:250-318`). -/
def optional : MP Optional := fun input => K.optionalF (input.inputLen + 1) input

/-- The parser of text of `/repo/src/parse.rs:363-366` and `509-512`, as `CE.textParser`. -/
def textParser : MP Span :=
  verify (K.escapedReservedChars0 (K.takeWhile isWithoutWhitespace)) (fun s => decide (s.inputLen > 0))

/-- `parse::alternative` (`/repo/src/parse.rs:349-371`). -/
def alternative : MP Alternative :=
  alt (pmap K.optional .optional) [pmap K.textParser .text]

/-- A sum of `usize`s, `none` being the overflow panic (`.sum::<usize>()`, `/repo/src/ast.rs:122`). -/
def sum : List Nat → Option Nat
  | [] => some 0
  | n :: ns => (sum ns).bind (K.add n)

/-- The summand of `Alternation::span_len` (`/repo/src/ast.rs:118-121`). -/
def pieceLen : Alternative → Option Nat
  | .text t => some t.inputLen
  | .optional o => K.add o.input.inputLen 2

/-- `Alternation::span_len` (`/repo/src/ast.rs:113-125`), as `CE.Alternation.spanLen`.
(The sum is taken from the end rather than from the beginning: with checked additions of naturals the two overflow
together.) -/
def spanLen (a : Alternation) : Metered (Option Nat) := do
  tick (a.flatten.length + a.length + 1)
  match a.flatten.mapM K.pieceLen with
  | none => pure none
  | some ns =>
    match K.sum ns with
    | none => pure none
    | some n =>
      match K.add n a.length with
      | none => pure none
      | some total => if total = 0 then pure none else pure (some (total - 1))

/-- The `match` of `parse::alternation` (`/repo/src/parse.rs:418-438`), as `CE.alternationHead`. -/
def alternationHead (input : Span) : Metered (IRes Alternation) := do
  match ← separatedList1 (K.tag ['/']) (many1 K.alternative) input with
  | .ok (rest, alt) =>
    match ← peek (K.tag ['/']) rest with
    | .ok (_, slash) => pure (.error (.failure (.emptyAlternation slash)))
    | .error .panic => pure (.error .panic)
    | .error .diverge => pure (.error .diverge)
    | .error _ =>
      if alt.length = 1 then pure (.error (.error (.other rest .tag)))
      else pure (.ok (rest, alt))
  | .error (.error (.other sp .many1)) =>
    match ← peek (K.tag ['/']) sp with
    | .ok _ => return .error (← failTake sp 1 .emptyAlternation)
    | .error .panic => pure (.error .panic)
    | .error .diverge => pure (.error .diverge)
    | .error _ => pure (.error (.error (.other sp .many1)))
  | .error e => pure (.error e)

/-- `parse::alternation` (`/repo/src/parse.rs:410-448`), as `CE.alternation`. -/
def alternation : MP Alternation := fun originalInput => do
  match ← K.alternationHead originalInput with
  | .error e => pure (.error e)
  | .ok (rest, alt) =>
    tick (alt.flatten.length + alt.length)
    if alt.containsOnlyOptional then
      match ← K.spanLen alt with
      | none => pure (.error .panic)
      | some n => return .error (← failTake originalInput n .onlyOptionalInAlternation)
    else pure (.ok (rest, alt))

/-- `parse::single_expression` (`/repo/src/parse.rs:487-518`). -/
def singleExpression : MPS SingleExpression :=
  altS (lift (pmap K.alternation .alternation))
    [ lift (pmap K.optional .optional),
      pmapS K.parameter .parameter,
      lift (pmap K.textParser .text),
      lift (pmap (K.takeWhile1 isWhitespace) .whitespaces) ]

/-- `parse::expression` (`/repo/src/parse.rs:547-557`): the indexer starts at 0. -/
def expression : MP Expression := fun input => do return (← many0 K.singleExpression input 0).1

/-- `Expression::parse` (`/repo/src/ast.rs:36-61`), as `CE.Expression.parse`. -/
def parse (value : List Char) : Metered (Outcome PErr Expression) := do
  match ← K.expression (Span.new value) with
  | .error (.error e) => pure (.err e)
  | .error (.failure e) => pure (.err e)
  | .error (.incomplete n) => pure (.err (.needed n))
  | .error .panic => pure .panic
  | .error .diverge => pure .diverge
  | .ok (rest, parsed) =>
    if rest.frag.isEmpty then pure (.ok parsed) else pure (.err (.other rest .verify))

end Machine
end CE
