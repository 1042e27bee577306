import Verif.Spec.Lang

/-!
# Specification: expressions whose arguments can be told apart

After everything which can match texts of different length comes, as long as there are parameters, something with a known
first character which cannot occur before.
-/

namespace CE.Spec
open Regex (Classes)

variable (U : Classes)

/-- The texts an element matches. -/
def _root_.CE.SingleExpression.Matches (e : SingleExpression) (x : List Char) : Prop := ∃ g p l, e.Piece U g p x l

/-- The first character of everything the elements match. -/
def Begins (c : Char) : Expression → Prop
  | .text t :: _ => (unescape t.frag).head? = some c
  | .whitespaces t :: _ => t.frag.head? = some c
  | _ => False

/-- Where the element ends can be told from what follows. -/
def EndKnown (e : SingleExpression) (es : Expression) : Prop :=
  match e with
  | .text _ => True
  | .whitespaces _ => True
  | .parameter p => p.input.frag = Builtin.string.name ∨ es = [] ∨ ∃ c, Begins c es ∧ ∀ x, e.Matches U x → c ∉ x
  | _ => ∃ c, Begins c es ∧ ∀ x, e.Matches U x → c ∉ x

/-- As long as there are parameters, the end of every element is known. -/
def Separable : Expression → Prop
  | [] => True
  | e :: es => (∀ p, .parameter p ∉ e :: es) ∨ (EndKnown U e es ∧ Separable es)

/-- `\s` has the space and `\d` has not. -/
def SaneSpace : Prop := U.space ' ' ∧ ¬ U.digit ' '

end CE.Spec
