import Verif.Spec.Lang

/-! # Specification: which texts an expression matches at all -/

namespace CE.Spec
open Regex (Classes)

/-! ## The shortest text -/

/-- The length of the shortest text of a branch: its texts without its optionals. -/
def branchShortest : SingleAlternation → Nat
  | [] => 0
  | .text t :: b => (unescape t.frag).length + branchShortest b
  | .optional _ :: b => branchShortest b

/-- The length of the shortest text of an element. -/
def _root_.CE.SingleExpression.shortest : SingleExpression → Nat
  | .text t => (unescape t.frag).length
  | .whitespaces t => t.frag.length
  | .optional _ => 0
  | .alternation a => (a.map branchShortest).min?.getD 0
  | .parameter p => if p.input.frag = Builtin.string.name then 2 else if p.input.frag = [] then 0 else 1

/-- The length of the shortest text of an expression. -/
def _root_.CE.Expression.shortest (e : Expression) : Nat := (e.map SingleExpression.shortest).sum

/-! ## All texts, if there are no parameters -/

/-- Every text of `A` followed by every text of `B`. -/
def cross (A B : List (List Char)) : List (List Char) := A.flatMap fun x => B.map fun y => x ++ y

def branchTexts : SingleAlternation → List (List Char)
  | [] => [[]]
  | .text t :: b => cross [unescape t.frag] (branchTexts b)
  | .optional o :: b => cross [[], unescape o.input.frag] (branchTexts b)

def _root_.CE.SingleExpression.texts : SingleExpression → List (List Char)
  | .text t => [unescape t.frag]
  | .whitespaces t => [t.frag]
  | .optional o => [[], unescape o.input.frag]
  | .alternation a => a.flatMap branchTexts
  | .parameter _ => []

/-- The texts of an expression without parameters. -/
def _root_.CE.Expression.texts : Expression → List (List Char)
  | [] => [[]]
  | e :: es => cross e.texts (Expression.texts es)

/-! ## Types of parameters -/

/-- What is assumed about `\d` and `\s`: on ASCII characters they are the digits and the blanks, and nothing is both. -/
structure Ordinary (U : Classes) : Prop where
  digit (c : Char) : c.toNat < 128 → (U.digit c ↔ c.isDigit = true)
  space (c : Char) : c.toNat < 128 → (U.space c ↔ c ∈ [' ', '\t', '\n', '\x0b', '\x0c', '\r'])
  disjoint (c : Char) : U.digit c → ¬ U.space c

/-- `b.Within b'`: every text of `b` is one of `b'`. -/
def Builtin.within : Builtin → Builtin → Bool
  | .int, .float | .int, .word | .int, .anonymous | .float, .word | .float, .anonymous | .word, .anonymous => true
  | b, b' => b = b'

end CE.Spec
