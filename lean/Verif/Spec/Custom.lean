import Verif.Spec.Lang

/-!
# Specification: the language of an expression with arbitrary parameter types

As `Splits`, but the meaning of parameters is given: `R p g pre x post l` says that the parameter `p`, whose groups are
numbered from `g`, matches `x` between `pre` and `post`, capturing `l`; `n p` is the number of its groups.
-/

namespace CE.Spec
open Regex (Cap Matches)

variable (R : Parameter → Nat → Matches) (n : Parameter → Nat)

/-- Number of groups of an element. -/
def _root_.CE.SingleExpression.groupCountWith : SingleExpression → Nat
  | .parameter p => n p
  | _ => 0

/-- The element matches `x` between `pre` and `post`, capturing `l`. -/
def _root_.CE.SingleExpression.PieceWith : SingleExpression → Nat → Matches
  | .text t, _, _, x, _, l => x = unescape t.frag ∧ l = []
  | .whitespaces t, _, _, x, _, l => x = t.frag ∧ l = []
  | .optional o, _, _, x, _, l => (x = [] ∨ x = unescape o.input.frag) ∧ l = []
  | .alternation a, _, _, x, _, l => (∃ b ∈ a, BranchLang b x) ∧ l = []
  | .parameter p, g, pre, x, post, l => R p g pre x post l

/-- The text splits into pieces, one per element. -/
inductive SplitsWith : Expression → Nat → Matches
  | nil (g pre post) : SplitsWith [] g pre [] post []
  | cons (e es g pre x y post k l) : e.PieceWith R g pre x (y ++ post) k →
      SplitsWith es (g + e.groupCountWith n) (pre ++ x) y post l → SplitsWith (e :: es) g pre (x ++ y) post (k ++ l)

/-- The parameters of an expression, from left to right. -/
def params (e : Expression) : List Parameter := e.filterMap fun
  | .parameter p => some p
  | _ => none

end CE.Spec
