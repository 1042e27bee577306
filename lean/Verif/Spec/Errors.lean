import Verif.Spec.Ast

/-! # Specification: outcomes of the elementary parsers

Which result `optional`, `parameter` and `alternative` return on an input, described by the shape of the input. -/

namespace CE.Spec

/-- `t` is the longest well-escaped prefix of `cs`, and `rest` is what follows it. -/
def Run (stops cs t rest : List Char) : Prop :=
  cs = t ++ rest ∧ Escd stops t ∧ ∀ u r, cs = u ++ r → Escd stops u → u.length ≤ t.length

/-- `cs` starts with the well-formed optional `(t)`, followed by `v`. -/
def IsOptional (cs t v : List Char) : Prop := cs = '(' :: t ++ ')' :: v ∧ t ≠ [] ∧ Escd optStops t

/-- `cs` starts with the well-formed parameter `{t}`, followed by `v`. -/
def IsParameter (cs t v : List Char) : Prop := cs = '{' :: t ++ '}' :: v ∧ Escd nameStops t

/-- `cs` starts with well-escaped text followed by `close`. -/
def Closes (stops : List Char) (close : Char) (cs : List Char) : Prop := ∃ t v, cs = t ++ close :: v ∧ Escd stops t

/-- The documented failures common to all texts: `pre` was read before the text run `t`, which is followed by `rest`. -/
inductive EscapeFailure (s : Span) (pre t rest : List Char) : PErr → Prop
  /-- A backslash and the non-reserved character it tries to escape. -/
  | nonReserved (d : Char) (v : List Char) : rest = '\\' :: d :: v →
      EscapeFailure s pre t rest (.escapedNonReservedCharacter (s.sub (pre ++ t) ['\\', d]))
  /-- A backslash at the end of input, directly at the beginning of the text. -/
  | endOfLine : rest = ['\\'] → t = [] → EscapeFailure s pre t rest (.escapedEndOfLine (s.sub pre ['\\']))
  /-- A backslash at the end of input after some text: the code reports the first two characters of the text and the
  wrong error (see C16). -/
  | endOfLineAfterText : rest = ['\\'] → t ≠ [] →
      EscapeFailure s pre t rest (.escapedNonReservedCharacter (s.sub pre ((t ++ ['\\']).take 2)))

/-- The failure of an optional, opened by the `(` at `s`, whose text run `t` is followed by `rest`. -/
inductive OptionalFailure (s : Span) (t rest : List Char) : PErr → Prop
  | empty (v) : rest = ')' :: v → t = [] → OptionalFailure s t rest (.emptyOptional (s.sub [] ['(', ')']))
  | alternation (v) : rest = '/' :: v → OptionalFailure s t rest (.alternationInOptional (s.sub ('(' :: t) ['/']))
  | nested (t' v) : IsOptional rest t' v → Closes optStops ')' v →
      OptionalFailure s t rest (.nestedOptional (s.sub ('(' :: t) ('(' :: t' ++ [')'])))
  | unescapedParen (v) : rest = '(' :: v → (¬ ∃ t' v', IsOptional rest t' v' ∧ Closes optStops ')' v') →
      OptionalFailure s t rest (.unescapedReservedCharacter (s.sub ('(' :: t) ['(']))
  | parameter (t' v) : IsParameter rest t' v →
      OptionalFailure s t rest (.parameterInOptional (s.sub ('(' :: t) ('{' :: t' ++ ['}'])))
  | unescapedBrace (v) : rest = '{' :: v → (¬ ∃ t' v', IsParameter rest t' v') →
      OptionalFailure s t rest (.unescapedReservedCharacter (s.sub ('(' :: t) ['{']))
  | unfinished : rest = [] → OptionalFailure s t rest (.unfinishedOptional (s.sub [] ['(']))
  | escape (e) : EscapeFailure s ['('] t rest e → OptionalFailure s t rest e

/-- The outcome of `optional` at `s`. -/
inductive OptionalOutcome (s : Span) : IRes Optional → Prop
  | notOptional : s.frag.head? ≠ some '(' → OptionalOutcome s (.error (.error (.other s .tag)))
  | ok (t v) : IsOptional s.frag t v → OptionalOutcome s (.ok (s.sub ('(' :: t ++ [')']) v, ⟨s.sub ['('] t⟩))
  | failure (r t rest e) : s.frag = '(' :: r → Run optStops r t rest → OptionalFailure s t rest e →
      OptionalOutcome s (.error (.failure e))

/-- The failure of a parameter, opened by the `{` at `s`, whose name run `t` is followed by `rest`. -/
inductive ParameterFailure (s : Span) (t rest : List Char) : PErr → Prop
  | nested (t' v) : IsParameter rest t' v → Closes nameStops '}' v →
      ParameterFailure s t rest (.nestedParameter (s.sub ('{' :: t) ('{' :: t' ++ ['}'])))
  | unescapedBrace (v) : rest = '{' :: v → (¬ ∃ t' v', IsParameter rest t' v' ∧ Closes nameStops '}' v') →
      ParameterFailure s t rest (.unescapedReservedCharacter (s.sub ('{' :: t) ['{']))
  | optional (t' v) : IsOptional rest t' v →
      ParameterFailure s t rest (.optionalInParameter (s.sub ('{' :: t) ('(' :: t' ++ [')'])))
  | unescapedParen (v) : rest = '(' :: v → (¬ ∃ t' v', IsOptional rest t' v') →
      ParameterFailure s t rest (.unescapedReservedCharacter (s.sub ('{' :: t) ['(']))
  | unescapedSlash (v) : rest = '/' :: v →
      ParameterFailure s t rest (.unescapedReservedCharacter (s.sub ('{' :: t) ['/']))
  | unfinished : rest = [] → ParameterFailure s t rest (.unfinishedParameter (s.sub [] ['{']))
  | escape (e) : EscapeFailure s ['{'] t rest e → ParameterFailure s t rest e

/-- The outcome of `parameter` at `s` with indexer `n`, and the new value of the indexer. -/
inductive ParameterOutcome (s : Span) (n : Nat) : IRes Parameter × Nat → Prop
  | notParameter : s.frag.head? ≠ some '{' → ParameterOutcome s n (.error (.error (.other s .tag)), n)
  | ok (t v) : IsParameter s.frag t v →
      ParameterOutcome s n (.ok (s.sub ('{' :: t ++ ['}']) v, ⟨s.sub ['{'] t, n⟩), n + 1)
  | failure (r t rest e) : s.frag = '{' :: r → Run nameStops r t rest → ParameterFailure s t rest e →
      ParameterOutcome s n (.error (.failure e), n)

/-- The outcome of `alternative` at `s`. -/
inductive AlternativeOutcome (s : Span) : IRes Alternative → Prop
  | optional (r o) : s.frag.head? = some '(' → OptionalOutcome s (.ok (r, o)) →
      AlternativeOutcome s (.ok (r, .optional o))
  | optionalFailure (e) : OptionalOutcome s (.error (.failure e)) → AlternativeOutcome s (.error (.failure e))
  | text (t rest) : s.frag.head? ≠ some '(' → Run textStops s.frag t rest → t ≠ [] → rest.head? ≠ some '\\' →
      AlternativeOutcome s (.ok (s.sub t rest, .text (s.sub [] t)))
  | textFailure (t rest e) : s.frag.head? ≠ some '(' → Run textStops s.frag t rest → EscapeFailure s [] t rest e →
      AlternativeOutcome s (.error (.failure e))
  | none : (∀ c, s.frag.head? = some c → c = ' ' ∨ c = '{' ∨ c = '/') →
      AlternativeOutcome s (.error (.error (.other s .alt)))

/-- Complete branches of an alternation: valid and non-empty. -/
def Branches (bs : List (List Piece)) : Prop := ∀ b ∈ bs, ValidPieces b ∧ b ≠ []

/-- Branches, each followed by `/`. -/
def slashTerminated (bs : List (List Piece)) : List Char := (bs.map (fun b => renderPieces b ++ ['/'])).flatten

/-- `cs` is empty or starts with one of `starts`. -/
def EndOr (starts cs : List Char) : Prop := cs = [] ∨ ∃ c r, cs = c :: r ∧ c ∈ starts

/-- The irrecoverable failures of `alternation` at `s`. -/
inductive AlternationFailure (s : Span) : PErr → Prop
  /-- A `/` at the very beginning. -/
  | emptyFirst (r) : s.frag = '/' :: r → AlternationFailure s (.emptyAlternation (s.sub [] ['/']))
  /-- Complete branches and a `/` with nothing after it. -/
  | emptyLater (bs r) : bs ≠ [] → Branches bs → s.frag = renderBranches bs ++ '/' :: r → EndOr [' ', '{', '/'] r →
      AlternationFailure s (.emptyAlternation (s.sub (renderBranches bs) ['/']))
  /-- A complete alternation, in which some branch consists of optionals only. -/
  | onlyOptional (bs rest) : 2 ≤ bs.length → Branches bs → s.frag = renderBranches bs ++ rest → EndOr [' ', '{'] rest →
      (∃ b ∈ bs, ∀ q ∈ b, q.isText = false) →
      AlternationFailure s (.onlyOptionalInAlternation (s.sub [] (renderBranches bs)))
  /-- Complete branches `bs`, pieces `b` of the next branch, and then a piece that fails. -/
  | piece (bs b v e) : Branches bs → ValidPieces b →
      s.frag = slashTerminated bs ++ renderPieces b ++ v →
      (∀ q, b.getLast? = some q → q.isText = true → v.head? = some '(') →
      AlternativeOutcome (s.sub (slashTerminated bs ++ renderPieces b) v) (.error (.failure e)) →
      AlternationFailure s e

/-- Where the next element of an expression starts afresh: not directly after a text, an optional or an alternation. -/
def Fresh (es : List Elem) : Prop := ∀ e, es.getLast? = some e → (∃ t, e = .ws t) ∨ (∃ t, e = .param t)

/-- The failures of `Expression::parse`: a canonical beginning followed by an element that fails. -/
inductive Failure (src : List Char) : PErr → Prop
  | parameter (es rest r t w e) : Canonical es → src = render es ++ rest → rest = '{' :: r → Run nameStops r t w →
      ParameterFailure ((Span.new src).sub (render es) rest) t w e → Failure src e
  | alternation (es rest e) : Canonical es → Fresh es → src = render es ++ rest →
      AlternationFailure ((Span.new src).sub (render es) rest) e → Failure src e

end CE.Spec
