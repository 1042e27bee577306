import Mathlib.Computability.DFA

/-! # Specification: a scanner for expressions

A finite automaton, which reads a text once, from left to right, one character at a time, and remembers one of sixteen
states. It knows nothing about parsing: no look-ahead, no backtracking, no counters.

The characters are those of `/repo/README.md` lines 46-73 (the grammar), with the two relaxations of C05. -/

namespace CE.Spec.Scanner

/-- What has been read of the current run of texts and optionals (it ends at a space, at a parameter and at the end). -/
inductive Ctx
  /-- No `/` yet and no text yet: optionals only. -/
  | fresh
  /-- There is some text, since the last `/` if there is one. -/
  | text
  /-- After a `/`, and no text since then. -/
  | need
  deriving DecidableEq, Repr

/-- The states of the scanner. -/
inductive State
  /-- Outside of brackets. -/
  | top (c : Ctx)
  /-- After a backslash outside of brackets. -/
  | esc
  /-- Inside of an optional; whether something has been read since the opening bracket. -/
  | opt (c : Ctx) (nonempty : Bool)
  /-- After a backslash inside of an optional. -/
  | optEsc (c : Ctx)
  /-- Inside of a parameter. -/
  | par
  /-- After a backslash inside of a parameter. -/
  | parEsc
  /-- Beyond repair. -/
  | dead
  deriving DecidableEq, Repr

/-- The sixteen states. -/
def states : List State :=
  [.top .fresh, .top .text, .top .need, .esc, .opt .fresh false, .opt .fresh true, .opt .text false, .opt .text true,
   .opt .need false, .opt .need true, .optEsc .fresh, .optEsc .text, .optEsc .need, .par, .parEsc, .dead]

instance : Fintype State :=
  ⟨⟨states, by decide⟩, by
    rintro (c | _ | ⟨c, b⟩ | c | _ | _ | _) <;> (try cases c) <;> (try cases b) <;> decide⟩

/-- The characters which may follow a backslash. -/
def escapable (c : Char) : Bool := c == '{' || c == '}' || c == '(' || c == ')' || c == '\\' || c == '/' || c == ' '

open State Ctx

/-- One step of the scanner. -/
def step : State → Char → State
  | top c, x =>
    if x = '\\' then esc
    else if x = '(' then opt c false
    else if x = '/' then (if c = .text then top need else dead)
    else if x = '{' then (if c = need then dead else par)
    else if x = ' ' then (if c = need then dead else top fresh)
    else top .text
  | esc, x => if escapable x then top .text else dead
  | opt c nonempty, x =>
    if x = '\\' then optEsc c
    else if x = ')' then (if nonempty then top c else dead)
    else if x = '(' ∨ x = '{' ∨ x = '/' then dead
    else opt c true
  | optEsc c, x => if escapable x then opt c true else dead
  | par, x =>
    if x = '\\' then parEsc
    else if x = '}' then top fresh
    else if x = '(' ∨ x = '{' ∨ x = '/' then dead
    else par
  | parEsc, x => if escapable x then par else dead
  | dead, _ => dead

/-- The state after reading a text. -/
def scan (s : State) (w : List Char) : State := w.foldl step s

/-- The states in which the text may end. -/
def accepting : State → Bool
  | top fresh => true
  | top .text => true
  | _ => false

/-- The automaton, in the sense of Mathlib. -/
def automaton : DFA Char State := ⟨step, top fresh, { s | accepting s = true }⟩

end CE.Spec.Scanner
