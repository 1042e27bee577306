import Verif.Spec.Lang
import Verif.Spec.Print
import Verif.Spec.CustomLang

/-! # Specification: putting expressions together -/

namespace CE.Spec
open Regex (Cap Re)

/-- The capture of a group numbered `g` higher, `p` characters further. -/
def _root_.CE.Regex.Cap.shift (g p : Nat) (c : Cap) : Cap := ⟨c.group + g, c.start + p, c.text⟩

/-- Elements that may belong to a branch of an alternation. -/
def _root_.CE.SingleExpression.isBranchLike : SingleExpression → Bool
  | .text _ => true
  | .optional _ => true
  | .alternation _ => true
  | _ => false

def _root_.CE.SingleExpression.isAlternation : SingleExpression → Bool
  | .alternation _ => true
  | _ => false

/-- Writing `y` directly behind `x` makes an alternation at the end of `x` or at the beginning of `y` grow. -/
def Touching (x y : Expression) : Prop :=
  ∃ a b, x.getLast? = some a ∧ y.head? = some b ∧ a.isBranchLike = true ∧ b.isBranchLike = true ∧
    (a.isAlternation = true ∨ b.isAlternation = true)

/-- One branch of an alternation, written out. -/
def printBranch (b : SingleAlternation) : List Char := b.flatMap printAlternative

/-- The text has no space, except escaped. -/
def NoSpace (t : List Char) : Prop := Escd [' '] t

/-- The provider looks at the name of a parameter only, not at its place. -/
def ByName (pars : Provider) : Prop := ∀ s t : Span, s.frag = t.frag → pars s = pars t

/-- Without conditions on positions. -/
def _root_.CE.Regex.Re.anchorFree : Re → Bool
  | .bol | .eol | .mark _ => false
  | .cap _ r | .rep r _ _ _ => r.anchorFree
  | .cat a b | .alt a b => a.anchorFree && b.anchorFree
  | _ => true

/-- The custom regex of the parameter, if it has one, has no anchors. -/
def AnchorFree (pars : Provider) (p : Parameter) : Prop :=
  ∀ v r, pars p.input = some v → Regex.parse v = .ok r → r.anchorFree = true

end CE.Spec
