import Verif.Model.Parse
import Verif.Model.Regex

/-!
# `/repo/src/expand/mod.rs`: expansion into a regular expression

Iterators are state machines: `next` returns an item (or `none` at the end) and the new state; the outer `Option` is
`none` when the call does not return. The `into_regex_char_iter` functions are modelled by the list of all items their
iterators yield (chains, `flat_map`, `map`, `once` of `std::iter` are list operations); laziness is not observable, as
the iterators have no side effects.
-/

namespace CE

/-- `Iterator::next`. For `/repo/src/expand/mod.rs:497-507`. -/
abbrev Next (σ α : Type) := σ → Option (Option α × σ)

/-- `str::Chars::next` (external). For `/repo/src/expand/mod.rs:248`. -/
def charsNext : Next (List Char) Char
  | [] => some (none, [])
  | c :: cs => some (some c, cs)

/-- `Iterator::collect` (external): all items up to the first `None`; `none` if `fuel` calls do not suffice.
For `/repo/src/expand/mod.rs:71`. -/
def collect {σ α : Type} (next : Next σ α) : Nat → σ → Option (List α)
  | 0, _ => none
  | n + 1, s =>
    match next s with
    | none => none
    | some (none, _) => some []
    | some (some a, s') => (collect next n s').map (a :: ·)

/-- `std::iter::Peekable` (external). For `/repo/src/expand/mod.rs:477,555`. -/
structure Peekable (σ α : Type) where
  peeked : Option (Option α)
  iter : σ

namespace Peekable

variable {σ α : Type}

/-- `Peekable::next` (external). For `/repo/src/expand/mod.rs:504,584`. -/
def next (nx : Next σ α) : Next (Peekable σ α) α
  | ⟨some v, s⟩ => some (v, ⟨none, s⟩)
  | ⟨none, s⟩ =>
    match nx s with
    | none => none
    | some (v, s') => some (v, ⟨none, s'⟩)

/-- `Peekable::peek` (external). For `/repo/src/expand/mod.rs:505,586`. -/
def peek (nx : Next σ α) : Peekable σ α → Option (Option α × Peekable σ α)
  | ⟨some v, s⟩ => some (v, ⟨some v, s⟩)
  | ⟨none, s⟩ =>
    match nx s with
    | none => none
    | some (v, s') => some (v, ⟨some v, s'⟩)

end Peekable

/-! ## `SkipLast` -/

/-- `SkipLast::new` (`/repo/src/expand/mod.rs:490-495`). -/
def SkipLast.new {σ α : Type} (iter : σ) : Peekable σ α := ⟨none, iter⟩

/-- `SkipLast::next` (`/repo/src/expand/mod.rs:497-507`). -/
def SkipLast.next {σ α : Type} (nx : Next σ α) : Next (Peekable σ α) α := fun s =>
  match Peekable.next nx s with
  | none => none
  | some (v, s1) =>
    match Peekable.peek nx s1 with
    | none => none
    | some (p, s2) => some (if p.isSome then v else none, s2)

/-! ## `OwnedChars` -/

/-- `OwnedChars` (`/repo/src/expand/mod.rs:509-519`). -/
structure OwnedChars where
  str : List Char
  cur : Nat

/-- `OwnedChars::new` (`/repo/src/expand/mod.rs:521-527`). -/
def OwnedChars.new (str : List Char) : OwnedChars := ⟨str, 0⟩

/-- `OwnedChars::next` (`/repo/src/expand/mod.rs:529-537`). -/
def OwnedChars.next : Next OwnedChars Char := fun s =>
  match s.str[s.cur]? with
  | none => some (none, s)
  | some c => some (some c, ⟨s.str, s.cur + 1⟩)

/-! ## `EscapeForRegex` -/

/-- `EscapeForRegex` (`/repo/src/expand/mod.rs:539-561`). -/
structure EscapeForRegex (σ : Type) where
  iter : Peekable σ Char
  wasEscaped : Option Char

/-- `EscapeForRegex::new` (`/repo/src/expand/mod.rs:563-568`). -/
def EscapeForRegex.new {σ : Type} (iter : σ) : EscapeForRegex σ := ⟨⟨none, iter⟩, none⟩

/-- `should_be_escaped` (`/repo/src/expand/mod.rs:577`). -/
def shouldBeEscaped (c : Char) : Bool := "^$[]()\\{}.|?*+".toList.contains c

/-- The `loop` of `EscapeForRegex::next` (`/repo/src/expand/mod.rs:583-601`); the first argument bounds the number of
rounds. -/
def EscapeForRegex.loop {σ : Type} (nx : Next σ Char) : Nat → Next (EscapeForRegex σ) Char
  | 0, _ => none
  | n + 1, s =>
    match s.iter.next nx with
    | none => none
    | some (none, it) => some (none, ⟨it, s.wasEscaped⟩)
    | some (some c, it) =>
      if c = '\\' then
        match it.peek nx with
        | none => none
        | some (none, it') => some (none, ⟨it', s.wasEscaped⟩)
        | some (some d, it') =>
          if shouldBeEscaped d then
            match it'.next nx with
            | none => none
            | some (e, it'') => some (some '\\', ⟨it'', e⟩)
          else loop nx n ⟨it', s.wasEscaped⟩
      else if shouldBeEscaped c then some (some '\\', ⟨it, some c⟩)
      else some (some c, ⟨it, s.wasEscaped⟩)

/-- `EscapeForRegex::next` (`/repo/src/expand/mod.rs:570-603`). -/
def EscapeForRegex.next {σ : Type} (nx : Next σ Char) (rounds : Nat) : Next (EscapeForRegex σ) Char := fun s =>
  match s.wasEscaped with
  | some c => some (some c, ⟨s.iter, none⟩)
  | none => loop nx rounds s

/-- All characters of `EscapeForRegex::new(t.iter_elements().map(as_char))`.
For `/repo/src/expand/mod.rs:248,346,377`. -/
def escapeForRegex (t : List Char) : Option (List Char) :=
  collect (EscapeForRegex.next charsNext (t.length + 1)) (2 * t.length + 1) (EscapeForRegex.new t)

/-! ## Expansion -/

/-- `ParameterError` (`/repo/src/expand/mod.rs:152-176`); the `regex_syntax::Error` is dropped. -/
inductive ParameterError
  | notFound (input : Span)
  | renameRegexGroup (parameter : Span) (re : List Char)
  deriving DecidableEq, Repr

/-- An item of the iterators. For `/repo/src/expand/mod.rs:185-187`. -/
abbrev Item := Except ParameterError Char

/-- `.map(Ok)`. For `/repo/src/expand/mod.rs:296,379`. -/
def okChars (cs : List Char) : List Item := cs.map .ok

/-- `IntoRegexCharIter for Optional` (`/repo/src/expand/mod.rs:365-381`). -/
def Optional.chars (o : Optional) : Option (List Item) :=
  (escapeForRegex o.input.frag).map fun cs => okChars ("(?:".toList ++ cs ++ ")?".toList)

/-- `IntoRegexCharIter for Alternative` (`/repo/src/expand/mod.rs:331-350`). -/
def Alternative.chars : Alternative → Option (List Item)
  | .optional o => o.chars
  | .text t => (escapeForRegex t.frag).map okChars

/-- `flat_map`: the items of all parts. For `/repo/src/expand/mod.rs:207,290`. -/
def flatItems {α : Type} (f : α → Option (List Item)) : List α → Option (List Item)
  | [] => some []
  | a :: as =>
    match f a with
    | none => none
    | some l => (flatItems f as).map (l ++ ·)

/-- The closure `single_alt` (`/repo/src/expand/mod.rs:285-292`). -/
def singleAltChars (alt : SingleAlternation) : Option (List Item) :=
  (flatItems Alternative.chars alt).map (· ++ [.ok '|'])

/-- `Iterator::next` of an iterator over a list of items. For `/repo/src/expand/mod.rs:297`. -/
def itemsNext : Next (List Item) Item
  | [] => some (none, [])
  | c :: cs => some (some c, cs)

/-- All items of `SkipLast::new(iter)`, where `iter` yields `items`. For `/repo/src/expand/mod.rs:297`. -/
def skipLast (items : List Item) : Option (List Item) :=
  collect (SkipLast.next itemsNext) (items.length + 1) (SkipLast.new items)

/-- `IntoRegexCharIter for Alternation` (`/repo/src/expand/mod.rs:276-300`). -/
def Alternation.chars (a : Alternation) : Option (List Item) :=
  match flatItems singleAltChars a with
  | none => none
  | some items => (skipLast items).map fun l => okChars "(?:".toList ++ l ++ [.ok ')']

/-- Decimal digits of a number (`format!("{id}")`). For `/repo/src/expand/mod.rs:438-443`. -/
def decimal (n : Nat) : List Char := Nat.toDigits 10 n

/-- The format string of `string` parameters (`/repo/src/expand/mod.rs:438-444`). -/
def stringPattern (id : Nat) : List Char :=
  "(?:\"(?P<__".toList ++ decimal id ++ "_0>[^\"\\\\]*(?:\\\\.[^\"\\\\]*)*)\"|'(?P<__".toList ++ decimal id ++
    "_1>[^'\\\\]*(?:\\\\.[^'\\\\]*)*)')".toList

/-- All characters of `OwnedChars::new(s)`. For `/repo/src/expand/mod.rs:438`. -/
def ownedChars (s : List Char) : Option (List Char) :=
  collect OwnedChars.next (s.length + 1) (OwnedChars.new s)

/-- `IntoRegexCharIter for Parameter` (`/repo/src/expand/mod.rs:402-453`). -/
def Parameter.chars (p : Parameter) : Option (List Item) :=
  if p.input.frag = "int".toList then some (okChars "((?:-?\\d+)|(?:\\d+))".toList)
  else if p.input.frag = "float".toList then
    some (okChars "([+-]?(?:inf|NaN|(?:\\d+|\\d+\\.\\d*|\\d*\\.\\d+)(?:[eE][+-]?\\d+)?))".toList)
  else if p.input.frag = "word".toList then some (okChars "([^\\s]+)".toList)
  else if p.input.frag = "string".toList then (ownedChars (stringPattern p.id)).map okChars
  else if p.input.frag = "".toList then some (okChars "(.*)".toList)
  else some [.error (.notFound p.input)]

/-- `IntoRegexCharIter for SingleExpression` (`/repo/src/expand/mod.rs:230-252`). -/
def SingleExpression.chars : SingleExpression → Option (List Item)
  | .alternation a => a.chars
  | .optional o => o.chars
  | .parameter p => p.chars
  | .text t => (escapeForRegex t.frag).map okChars
  | .whitespaces t => (escapeForRegex t.frag).map okChars

/-- `IntoRegexCharIter for Expression` (`/repo/src/expand/mod.rs:195-210`). -/
def Expression.chars (e : Expression) : Option (List Item) :=
  (flatItems SingleExpression.chars e).map fun l => [.ok '^'] ++ l ++ [.ok '$']

/-- `collect::<Result<String, _>>()` (external): the first error, or all characters.
For `/repo/src/expand/mod.rs:71,116`. -/
def collectResult : List Item → Except ParameterError (List Char)
  | [] => .ok []
  | .error e :: _ => .error e
  | .ok c :: r =>
    match collectResult r with
    | .error e => .error e
    | .ok cs => .ok (c :: cs)

/-- `expand::Error` (`/repo/src/expand/mod.rs:133-150`). -/
inductive ExpandError
  | parsing (e : PErr)
  | expansion (e : ParameterError)
  /-- `Regex::new` failed (or, for custom parameters, the pattern is outside the modelled fragment). -/
  | regex (e : Regex.RErr)
  deriving DecidableEq, Repr

/-- A compiled `regex::Regex`: its pattern (`as_str`) and syntax tree. For `/repo/src/expand/mod.rs:72`. -/
structure Compiled where
  pattern : List Char
  re : Regex.Re
  deriving DecidableEq, Repr

/-- `Regex::new(&re_str).map_err(Into::into)` (`/repo/src/expand/mod.rs:72,117`). -/
def compile (items : Option (List Item)) : Outcome ExpandError Compiled :=
  match items with
  | none => .diverge
  | some l =>
    match collectResult l with
    | .error e => .err (.expansion e)
    | .ok cs =>
      match Regex.parse cs with
      | .error e => .err (.regex e)
      | .ok r => .ok ⟨cs, r⟩

/-- `Expression::regex` (`/repo/src/expand/mod.rs:66-73`). -/
def Expression.regex (input : List Char) : Outcome ExpandError Compiled :=
  match Expression.parse input with
  | .err e => .err (.parsing e)
  | .panic => .panic
  | .diverge => .diverge
  | .ok e => compile e.chars

end CE
