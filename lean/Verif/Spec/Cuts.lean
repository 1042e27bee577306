import Verif.Spec.Separable
import Verif.Spec.CustomRegular

/-!
# Specification: the arguments of an expression with custom parameters: C79, C80
-/

namespace CE.Spec
open Regex (Cap Matches Classes)

section
variable (R : Parameter → Nat → Matches) (n : Parameter → Nat)

/-- The texts an element matches somewhere. -/
def _root_.CE.SingleExpression.MatchesWith (e : SingleExpression) (x : List Char) : Prop := ∃ g pre post l, e.PieceWith R g pre x post l

/-- Where the element ends can be told: nothing follows, or no text of the element begins with another one, or something follows
whose first character does not occur in the texts of the element. -/
def EndKnownWith (e : SingleExpression) (es : Expression) : Prop :=
  es = [] ∨ (∀ x x', e.MatchesWith R x → e.MatchesWith R x' → x <+: x' → x = x') ∨ ∃ c, Begins c es ∧ ∀ x, e.MatchesWith R x → c ∉ x

/-- As long as there are parameters, the end of every element is known. -/
def SeparableWith : Expression → Prop
  | [] => True
  | e :: es => params (e :: es) = [] ∨ (EndKnownWith R e es ∧ SeparableWith es)

/-- What a parameter captures is determined by the text it matches, where it stands. -/
def Determined (p : Parameter) : Prop := ∀ g pre x post l l', R p g pre x post l → R p g pre x post l' → l = l'

/-- The text splits into pieces, one per element; the last argument are the pieces of the parameters. -/
inductive Cuts : Expression → Nat → (pre w post : List Char) → List (List Char) → Prop
  | nil (g pre post) : Cuts [] g pre [] post []
  | argument (p es g pre x y post k xs) : R p g pre x (y ++ post) k → Cuts es (g + n p) (pre ++ x) y post xs →
      Cuts (.parameter p :: es) g pre (x ++ y) post (x :: xs)
  | other (e es g pre x y post k xs) : (∀ p, e ≠ .parameter p) → e.PieceWith R g pre x (y ++ post) k → Cuts es g (pre ++ x) y post xs →
      Cuts (e :: es) g pre (x ++ y) post xs
end

/-- The length of all texts the regex matches, if it can be told from its structure. -/
def _root_.CE.Regex.Re.width : Regex.Re → Option Nat
  | .empty => some 0
  | .lit _ => some 1
  | .dot => some 1
  | .cls _ => some 1
  | .bol => some 0
  | .eol => some 0
  | .mark _ => some 0
  | .cap _ r => r.width
  | .cat a b => match a.width, b.width with
    | some k, some m => some (k + m)
    | _, _ => none
  | .alt a b => if a.width = b.width then a.width else none
  | .rep r m n _ => if n = some m then r.width.map (m * ·) else none

variable (T : Tables)

/-- In its place, whatever it is, the parameter matches the text. -/
def TakesParam (pars : Provider) (p : Parameter) (pre x post : List Char) : Prop := ∃ g l, customMatch T pars p g pre x post l

end CE.Spec
