import Verif.Model.Expand
import Verif.Model.Parameters
import Verif.Spec.Custom
import Verif.Spec.Lang

/-! # Specification: expressions used as custom parameters -/

namespace CE.Spec
open Regex (Cap Matches Classes)

variable (U : Classes) (inner : Parameter → Option Expression)

/-- A parameter matches what its expression matches, and captures what the parameters of this expression capture; if it
has none, the whole match. Parameters without an expression are built in. -/
def nestedMatch (p : Parameter) : Nat → Matches := fun g pre x _ l =>
  match inner p with
  | none => ∃ b : Builtin, p.input.frag = b.name ∧ b.Lang U x ∧ b.Captures g pre.length x l
  | some e => if params e = [] then e.Lang U x ∧ l = [⟨g, pre.length, x⟩] else Splits U e g pre.length x l

/-- The number of its groups. -/
def nestedGroups (p : Parameter) : Nat :=
  match inner p with
  | none => if p.input.frag = Builtin.string.name then 2 else 1
  | some e => if params e = [] then 1 else (e.map SingleExpression.groupCount).sum

/-- The provider knows a parameter under the regex, without its anchors, of an accepted expression with built-in
parameters, or not at all, and it is built in. -/
def Nests (pars : Provider) (p : Parameter) : Prop :=
  match pars p.input with
  | none => inner p = none ∧ ∃ b : Builtin, p.input.frag = b.name
  | some v => ∃ src e c, inner p = some e ∧ Expression.parse src = .ok e ∧ AllBuiltin e ∧ Expression.regex src = .ok c ∧
      c.pattern = ['^'] ++ v ++ ['$']

end CE.Spec
