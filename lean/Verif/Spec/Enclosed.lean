import Verif.Model.Nest
import Verif.Model.Translate
import Verif.Spec.CustomLang

/-!
# Specification: what becomes nested in an expression with custom regexes: C54
-/

namespace CE.Spec
open Regex

variable (parseHir : List Char → Option Hir) (pars : Provider)

/-- What is put in parentheses for a custom regex: itself or, if it has capture groups outside repetitions, its printed form with these
renamed. -/
def enclosedText (id : Nat) (v : List Char) : Option (List Char) :=
  if '(' ∈ v then
    match parseHir v with
    | none => none
    | some h => some (if h.hasCaptureGroups then (h.renameCaptureGroups id).print else v)
  else some v

/-- The parameter is built in, or what is put in parentheses for it is a valid regex, at most `k` deep. -/
def LevelParam (k : Nat) (p : Parameter) : Prop :=
  match pars p.input with
  | none => ∃ b : Builtin, p.input.frag = b.name
  | some v => ∃ w a, enclosedText parseHir p.id v = some w ∧ Ast.parse w = .ok a ∧ a.nest ≤ k

/-- `(a(a(a…)))` with `n` groups. -/
def deepRegex (n : Nat) : List Char := (List.replicate n ['(', 'a']).flatten ++ List.replicate n ')'

end CE.Spec
