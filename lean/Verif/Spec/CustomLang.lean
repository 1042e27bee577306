import Verif.Model.Parameters
import Verif.Spec.Custom
import Verif.Spec.Hir

/-!
# Specification: the language of an expression with custom parameters

`parseHir` stands for the parser of `regex_syntax`.
-/

namespace CE.Spec
open Regex (Re Cap Matches Classes LikeIn)

variable (parseHir : List Char → Option Hir) (U : Classes) (pars : Provider)

/-- The HIR of a custom regex with a capture group outside repetitions. -/
def grouped (v : List Char) : Option Hir :=
  if '(' ∈ v then (parseHir v).filter (·.outerGroup) else none

/-- `v` is a valid regex, `r`, which `regex_syntax` (needed only if `v` has a parenthesis) understands in the same way. -/
def Understood (v : List Char) (r : Re) : Prop :=
  Regex.parse v = .ok r ∧ ('(' ∈ v → parseHir v ≠ none) ∧
  ∀ h, grouped parseHir v = some h → h.Wf ∧ h.indices.Nodup ∧ LikeIn U h.toRe r

/-- The parameter is built in or has a valid custom regex. -/
def Sound (p : Parameter) : Prop :=
  match pars p.input with
  | none => ∃ b : Builtin, p.input.frag = b.name
  | some v => ∃ r, Understood parseHir U v r

/-- What a parameter matches and captures. A custom regex matches what it matches by itself; if it has no
capture group outside repetitions, its match is captured as a whole, before whatever it captures itself. -/
def paramMatch (p : Parameter) : Nat → Matches := fun g pre x post l =>
  match pars p.input with
  | none => ∃ b : Builtin, p.input.frag = b.name ∧ b.Lang U x ∧ b.Captures g pre.length x l
  | some v => ∃ r, Regex.parse v = .ok r ∧ match grouped parseHir v with
    | some _ => r.Match U g pre x post l
    | none => ∃ k, r.Match U (g + 1) pre x post k ∧ l = ⟨g, pre.length, x⟩ :: k

/-- The number of its groups. -/
def paramGroups (p : Parameter) : Nat :=
  match pars p.input with
  | none => if p.input.frag = Builtin.string.name then 2 else 1
  | some v => match Regex.parse v, grouped parseHir v with
    | .ok r, some _ => r.groups.length
    | .ok r, none => r.groups.length + 1
    | .error _, _ => 0

/-- The names of its groups. -/
def paramNames (p : Parameter) : List (List Char) :=
  match pars p.input with
  | none => if p.input.frag = Builtin.string.name then [groupName p.id 0, groupName p.id 1] else []
  | some v => match Regex.parse v, grouped parseHir v with
    | .ok _, some h => (relabel p.id 0 h.toRe.marked).filterMap id
    | .ok r, none => r.names
    | .error _, _ => []

/-- Its groups: their names, if any. -/
def paramLabels (p : Parameter) : List (Option (List Char)) :=
  match pars p.input with
  | none => if p.input.frag = Builtin.string.name then [some (groupName p.id 0), some (groupName p.id 1)] else [none]
  | some v => match Regex.parse v, grouped parseHir v with
    | .ok _, some h => relabel p.id 0 h.toRe.marked
    | .ok r, none => none :: r.groups
    | .error _, _ => []

end CE.Spec
