import Verif.Model.Translate
import Verif.Spec.CustomLang
import Verif.Spec.Regular

/-!
# Specification: custom parameters in terms of their regexes alone

As `Spec/CustomLang.lean`, but without reference to the HIR.
-/

namespace CE.Spec
open Regex (Ast Re Cap Matches Classes)

variable (T : Tables) (pars : Provider)

/-- There is a capture group outside repetitions. -/
def _root_.CE.Regex.Ast.outerGroup (a : Ast) : Bool := a.marked.any (! ·.2)

/-- The parameter is built in, or has a valid custom regex, which is regular if it has a capture group. -/
def RegularParam (p : Parameter) : Prop :=
  match pars p.input with
  | none => ∃ b : Builtin, p.input.frag = b.name
  | some v => ∃ a, Ast.parse v = .ok a ∧ (a.toRe.groups ≠ [] → a.Regular)

/-- What a parameter matches and captures. A custom regex matches what it matches by itself; if it has no capture group
outside repetitions, its match is captured as a whole, before whatever it captures itself. -/
def customMatch (p : Parameter) : Nat → Matches := fun g pre x post l =>
  match pars p.input with
  | none => ∃ b : Builtin, p.input.frag = b.name ∧ b.Lang T.classes x ∧ b.Captures g pre.length x l
  | some v => ∃ a, Ast.parse v = .ok a ∧ if a.outerGroup then a.toRe.Match T.classes g pre x post l
    else ∃ k, a.toRe.Match T.classes (g + 1) pre x post k ∧ l = ⟨g, pre.length, x⟩ :: k

/-- The number of its groups. -/
def customGroups (p : Parameter) : Nat :=
  match pars p.input with
  | none => if p.input.frag = Builtin.string.name then 2 else 1
  | some v => match Ast.parse v with
    | .ok a => if a.outerGroup then a.toRe.groups.length else a.toRe.groups.length + 1
    | .error _ => 0

/-- The names of its groups. -/
def customNames (p : Parameter) : List (List Char) :=
  match pars p.input with
  | none => if p.input.frag = Builtin.string.name then [groupName p.id 0, groupName p.id 1] else []
  | some v => match Ast.parse v with
    | .ok a => if a.outerGroup then (relabel p.id 0 a.marked).filterMap id else a.toRe.names
    | .error _ => []

end CE.Spec
