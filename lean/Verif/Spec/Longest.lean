import Verif.Spec.Texts

/-!
# Specification: the longest text of an expression: C85
-/

namespace CE.Spec
open Regex (Re)

/-- A length that no match of the regex exceeds, read off its structure, if there is one. -/
def _root_.CE.Regex.Re.most : Re → Option Nat
  | .lit _ => some 1
  | .dot => some 1
  | .cls _ => some 1
  | .cap _ r => r.most
  | .cat a b => match a.most, b.most with
    | some m, some n => some (m + n)
    | _, _ => none
  | .alt a b => match a.most, b.most with
    | some m, some n => some (max m n)
    | _, _ => none
  | .rep r _ n _ => match n, r.most with
    | _, some 0 => some 0
    | some n, some k => some (n * k)
    | some 0, none => some 0
    | _, _ => none
  | _ => some 0

/-- `m` is the length of the longest text. -/
def Longest (L : List Char → Prop) (m : Nat) : Prop := (∀ x, L x → x.length ≤ m) ∧ ∃ x, L x ∧ x.length = m

/-- The texts are no longer than some length. -/
def Bounded (L : List Char → Prop) : Prop := ∃ n, ∀ x, L x → x.length ≤ n

/-- The length of the longest text of a branch: its texts with its optionals. -/
def branchLongest : SingleAlternation → Nat
  | [] => 0
  | .text t :: b => (unescape t.frag).length + branchLongest b
  | .optional o :: b => (unescape o.input.frag).length + branchLongest b

/-- The length of the longest text of an element, given that of the parameters. -/
def _root_.CE.SingleExpression.longestWith (m : Parameter → Nat) : SingleExpression → Nat
  | .text t => (unescape t.frag).length
  | .whitespaces t => t.frag.length
  | .optional o => (unescape o.input.frag).length
  | .alternation a => (a.map branchLongest).max?.getD 0
  | .parameter p => m p

def _root_.CE.Expression.longestWith (m : Parameter → Nat) (e : Expression) : Nat := (e.map (SingleExpression.longestWith m)).sum

end CE.Spec
