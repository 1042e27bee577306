import Verif.Model.Adapters
import Verif.Spec.Pattern
import Verif.Spec.Custom

/-! # Specification: what stateful iterators yield, and when a provider is asked

A *trace* is the list of the items that the calls of `next` return, each with the state of the provider right after that
call. -/

namespace CE.Spec

variable {S σ α : Type}

/-- From now on every call of `next` returns `None` and has no effect. -/
def Exhausted (nx : NextS S σ α) (s : σ) : Prop :=
  ∃ D : σ → Prop, D s ∧ ∀ t, D t → ∀ e, ∃ t', nx t e = some ((none, t'), e) ∧ D t'

/-- From the state `s`, with the provider in the state `e`, the calls of `next` return the items of the trace, then
`None` (where they leave the provider in the state `e'`), and then `None` forever without any effect. -/
inductive Traces (nx : NextS S σ α) : σ → S → List (α × S) → S → Prop
  | done (s s' e e') : nx s e = some ((none, s'), e') → Exhausted nx s' → Traces nx s e [] e'
  | item (s s' e e₁ e' a l) : nx s e = some ((some a, s'), e₁) → Traces nx s' e₁ l e' → Traces nx s e ((a, e₁) :: l) e'

/-- The items, without any effect. -/
def Emits (nx : NextS S σ α) (s : σ) (l : List α) : Prop := ∀ e, Traces nx s e (l.map (·, e)) e

/-- The characters of a text, as items. -/
def oks (cs : List Char) : List Item := cs.map .ok

/-- The built-in parameter type with the given name. -/
def builtin? (n : List Char) : Option Builtin :=
  [Builtin.int, .float, .word, .string, .anonymous].find? (·.name = n)

/-- The items of a parameter for which the provider has given the answer. -/
def answered (parseHir : List Char → Option Hir) (p : Parameter) : Option (List Char) → List Item
  | none =>
    match builtin? p.input.frag with
    | some b => oks (b.pattern p.id)
    | none => [.error (.notFound p.input)]
  | some v =>
    if '(' ∈ v then
      match parseHir v with
      | none => [.error (.renameRegexGroup p.input v)]
      | some h => if h.hasCaptureGroups then oks (enclosed (h.renameCaptureGroups p.id).print) else oks ('(' :: v ++ [')'])
    else oks ('(' :: v ++ [')'])

/-- The characters of an element other than a parameter. -/
def plainPattern : SingleExpression → List Char
  | .whitespaces t => literal t.frag
  | el => elementPattern (fun _ => []) el

/-- The items of an element, given the answers for parameters. -/
def itemsOf (parseHir : List Char → Option Hir) (pr : Provider) : SingleExpression → List Item
  | .parameter p => answered parseHir p (pr p.input)
  | el => oks (plainPattern el)

/-- The trace of a list of elements: the provider is asked once for each parameter, in order, by the call of `next` that
returns the first item of the parameter. -/
def trace {P : Type} (parseHir : List Char → Option Hir) (get : P → Span → S → Option (List Char) × S) (pars : P) :
    List SingleExpression → S → List (Item × S) × S
  | [], e => ([], e)
  | .parameter p :: r, e =>
    let (v, e₁) := get pars p.input e
    let (l, e') := trace parseHir get pars r e₁
    ((answered parseHir p v).map (·, e₁) ++ l, e')
  | el :: r, e =>
    let (l, e') := trace parseHir get pars r e
    ((oks (plainPattern el)).map (·, e) ++ l, e')

/-- Asking for one parameter after another until one of them fails: the characters of the whole, or the error, and the
state in which this leaves the provider. -/
def askAll {P : Type} (parseHir : List Char → Option Hir) (get : P → Span → S → Option (List Char) × S) (pars : P) :
    List SingleExpression → S → Except ParameterError (List Char) × S
  | [], e => (.ok [], e)
  | .parameter p :: r, e =>
    let (v, e₁) := get pars p.input e
    match collectResult (answered parseHir p v) with
    | .error x => (.error x, e₁)
    | .ok cs =>
      match askAll parseHir get pars r e₁ with
      | (.error x, e') => (.error x, e')
      | (.ok ds, e') => (.ok (cs ++ ds), e')
  | el :: r, e =>
    match askAll parseHir get pars r e with
    | (.error x, e') => (.error x, e')
    | (.ok ds, e') => (.ok (plainPattern el ++ ds), e')

/-- A provider that writes down what it is asked for. -/
def logging (pars : Provider) : Unit → Span → List Span → Option (List Char) × List Span :=
  fun _ sp log => (pars sp, log ++ [sp])

/-- The expansion of the parameter fails. -/
def fails (parseHir : List Char → Option Hir) (pars : Provider) (p : Parameter) : Bool :=
  match pars p.input with
  | none => (builtin? p.input.frag).isNone
  | some v => '(' ∈ v && (parseHir v).isNone

/-- The parameters up to (and including) the first one whose expansion fails. -/
def upToFirst (bad : Parameter → Bool) : List Parameter → List Parameter
  | [] => []
  | p :: r => if bad p then [p] else p :: upToFirst bad r

end CE.Spec
