import Verif.Model.RegexAst

/-!
# Specification: regexes whose exact counts are not lazy

`a{2}?` is the same as `a{2}`. The HIR keeps the `?`, the printer drops it.
-/

namespace CE.Regex

mutual
/-- No `?` after an exact count (other than `{0}` and `{1}`). -/
def Ast.Steady : Ast → Prop
  | .cap _ a => a.Steady
  | .group a => a.Steady
  | .concat as => AllSteady as
  | .alt as => AllSteady as
  | .rep a m n g => a.Steady ∧ (n = some m → 2 ≤ m → g = true)
  | _ => True
def Ast.AllSteady : List Ast → Prop
  | [] => True
  | a :: as => a.Steady ∧ AllSteady as
end

end CE.Regex
