import Verif.Spec.Pieces

/-!
# Specification: how deep a class is nested: C54
-/

namespace CE.Spec.Pat

/-- Several items side by side count for one level, one does not. -/
def run (count deep : Nat) : Nat := if 2 ≤ count then deep + 1 else deep

/-- An operation counts for one level. -/
def combine (left : Option Nat) (right : Nat) : Nat :=
  match left with
  | none => right
  | some l => max l right + 1

/-- How deep it is, if before it there is something `left` deep and an operation (or not), and then `count` items, the deepest of them
`deep` deep. -/
def Body.levels (left : Option Nat) (count deep : Nat) : Body → Nat
  | .nil => combine left (run count deep)
  | .item _ r => r.levels left (count + 1) deep
  | .sub _ b r => r.levels left (count + 1) (max deep (b.levels none 0 0 + 1))
  | .op _ r => r.levels (some (combine left (run count deep))) 0 0

end CE.Spec.Pat
