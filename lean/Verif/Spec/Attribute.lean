import Verif.Spec.CustomRegular

/-!
# Specification: which groups belong to which parameter

The documentation (/repo/src/expand/parameters.rs:29-32): "Usually, a `Parameter` is represented by a single `Regex`
capturing group. In case there are multiple capturing groups, they will be named like `__{parameter_id}_{group_id}`. This
is done to identify multiple capturing groups related to a single `Parameter`." This is how a user attributes captures to
parameters, looking only at the names of the groups of the compiled regex.
-/

namespace CE.Spec
open Regex (Ast)

/-- What the names of the groups of parameter `id` begin with. -/
def namePrefix (id : Nat) : List Char := ['_', '_'] ++ decimal id ++ ['_']

/-- The group is named as a group of parameter `id`. -/
def claimedBy (id : Nat) : Option (List Char) → Bool
  | none => false
  | some n => (namePrefix id).isPrefixOf n

/-- Attributes the groups of a regex, given by their names, to the parameters with these ids, from left to right: a
parameter owns the next groups named after it, or else the next group, which then has no name. The result is the number
of groups of each parameter, if all groups are used up. -/
def owners : List Nat → List (Option (List Char)) → Option (List Nat)
  | [], [] => some []
  | [], _ :: _ => none
  | i :: is, gs =>
    let mine := gs.takeWhile (claimedBy i)
    match mine, gs with
    | _ :: _, _ => (owners is (gs.drop mine.length)).map (mine.length :: ·)
    | [], none :: gs' => (owners is gs').map (1 :: ·)
    | [], _ => none

variable (pars : Provider)

/-- The custom regex of the parameter, if it has one, has no capture group inside a repetition. -/
def Unrepeated (p : Parameter) : Prop := ∀ v a, pars p.input = some v → Ast.parse v = .ok a → ∀ g ∈ a.marked, g.2 = false

/-- The groups of a parameter, with their names. -/
def customLabels (p : Parameter) : List (Option (List Char)) :=
  match pars p.input with
  | none => if p.input.frag = Builtin.string.name then [some (groupName p.id 0), some (groupName p.id 1)] else [none]
  | some v => match Ast.parse v with
    | .ok a => if a.outerGroup then (List.range a.toRe.groups.length).map fun k => some (groupName p.id k) else [none]
    | .error _ => []

end CE.Spec
