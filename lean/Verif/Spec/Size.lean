import Verif.Spec.Pattern

/-! # Specification: sizes -/

namespace CE.Spec

/-- How many characters the numbers in the group names of `{string}` parameters take: each has two groups, named with
the id of the parameter in decimal. -/
def idDigits (e : Expression) : Nat :=
  (e.map fun
    | .parameter p => if p.input.frag = "string".toList then 2 * (decimal p.id).length else 0
    | _ => 0).sum

end CE.Spec
