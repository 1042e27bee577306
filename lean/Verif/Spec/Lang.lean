import Verif.Model.RegexSem
import Verif.Spec.Iter

/-!
# Specification: the language of an expression

What a Cucumber Expression matches, and what its parameters capture, without reference to regular expressions.
`\d` and `\s` of the `regex` crate are the uninterpreted predicates `U.digit` and `U.space`.
-/

namespace CE.Spec
open Regex (Classes Cap)

variable (U : Classes)

/-! ## Built-in parameter types -/

/-- The built-in parameter types. -/
inductive Builtin
  | int
  | float
  | word
  | string
  | anonymous
  deriving DecidableEq, Repr

/-- Their names. -/
def Builtin.name : Builtin → List Char
  | .int => ['i', 'n', 't']
  | .float => ['f', 'l', 'o', 'a', 't']
  | .word => ['w', 'o', 'r', 'd']
  | .string => ['s', 't', 'r', 'i', 'n', 'g']
  | .anonymous => []

/-- Zero or more digits. -/
def Digits0 (x : List Char) : Prop := ∀ c ∈ x, U.digit c

/-- One or more digits. -/
def Digits (x : List Char) : Prop := x ≠ [] ∧ Digits0 U x

/-- Decimal digits with at most one point, and at least one digit. -/
def Mantissa (x : List Char) : Prop :=
  Digits U x ∨ ∃ a b, x = a ++ '.' :: b ∧ Digits0 U a ∧ Digits0 U b ∧ (a ≠ [] ∨ b ≠ [])

/-- An optional sign. -/
def Sign (x : List Char) : Prop := x = [] ∨ x = ['+'] ∨ x = ['-']

/-- `e` or `E`, an optional sign, digits. -/
def Exponent (x : List Char) : Prop := ∃ c s d, x = c :: (s ++ d) ∧ (c = 'e' ∨ c = 'E') ∧ Sign s ∧ Digits U d

/-- The inside of a text quoted with `q`: characters other than `q` and backslash, and pairs of a backslash and any
character but a newline. -/
inductive Quoted (q : Char) : List Char → Prop
  | nil : Quoted q []
  | char (c cs) : c ≠ q → c ≠ '\\' → Quoted q cs → Quoted q (c :: cs)
  | pair (c cs) : c ≠ '\n' → Quoted q cs → Quoted q ('\\' :: c :: cs)

/-- The texts that belong to a parameter type. -/
def Builtin.Lang : Builtin → List Char → Prop
  | .int, x => ∃ d, Digits U d ∧ (x = d ∨ x = '-' :: d)
  | .float, x => ∃ s b, x = s ++ b ∧ Sign s ∧
      (b = ['i', 'n', 'f'] ∨ b = ['N', 'a', 'N'] ∨ ∃ m e, b = m ++ e ∧ Mantissa U m ∧ (e = [] ∨ Exponent U e))
  | .word, x => x ≠ [] ∧ ∀ c ∈ x, ¬ U.space c
  | .string, x => ∃ q i, (q = '"' ∨ q = '\'') ∧ x = q :: (i ++ [q]) ∧ Quoted q i
  | .anonymous, x => '\n' ∉ x

/-- How many groups a parameter has. -/
def Builtin.groupCount : Builtin → Nat
  | .string => 2
  | _ => 1

/-- What a parameter captures, when the text `x` of its language stands at position `p` and its groups are numbered
from `g`: everything; for `string`, what is inside the quotes, in its first group for double and in its second for
single quotes. -/
def Builtin.Captures : Builtin → (g p : Nat) → (x : List Char) → List Cap → Prop
  | .string, g, p, x, l => ∃ i, (x = '"' :: (i ++ ['"']) ∧ l = [⟨g, p + 1, i⟩]) ∨ (x = '\'' :: (i ++ ['\'']) ∧ l = [⟨g + 1, p + 1, i⟩])
  | _, g, p, x, l => l = [⟨g, p, x⟩]

/-! ## Elements -/

/-- The texts a part of an alternation's branch matches. -/
def _root_.CE.Alternative.Lang : Alternative → List Char → Prop
  | .text t, x => x = unescape t.frag
  | .optional o, x => x = [] ∨ x = unescape o.input.frag

/-- The texts one branch matches: one part after the other. -/
def BranchLang : SingleAlternation → List Char → Prop
  | [], x => x = []
  | a :: as, x => ∃ y z, x = y ++ z ∧ a.Lang y ∧ BranchLang as z

/-- Number of groups of an element. -/
def _root_.CE.SingleExpression.groupCount : SingleExpression → Nat
  | .parameter p => if p.input.frag = Builtin.string.name then 2 else 1
  | _ => 0

/-- The element matches `x` at position `p`, its groups, numbered from `g`, capturing `l`. -/
def _root_.CE.SingleExpression.Piece : SingleExpression → (g p : Nat) → (x : List Char) → List Cap → Prop
  | .text t, _, _, x, l => x = unescape t.frag ∧ l = []
  | .whitespaces t, _, _, x, l => x = t.frag ∧ l = []
  | .optional o, _, _, x, l => (x = [] ∨ x = unescape o.input.frag) ∧ l = []
  | .alternation a, _, _, x, l => (∃ b ∈ a, BranchLang b x) ∧ l = []
  | .parameter q, g, p, x, l => ∃ b : Builtin, q.input.frag = b.name ∧ b.Lang U x ∧ b.Captures g p x l

/-- `w` splits into pieces, one per element. -/
inductive Splits : Expression → (g p : Nat) → (w : List Char) → List Cap → Prop
  | nil (g p) : Splits [] g p [] []
  | cons (e es g p x y k l) : e.Piece U g p x k → Splits es (g + e.groupCount) (p + x.length) y l →
      Splits (e :: es) g p (x ++ y) (k ++ l)

/-- The texts an expression matches. -/
def _root_.CE.Expression.Lang (e : Expression) (w : List Char) : Prop := ∃ l, Splits U e 1 0 w l

/-- Every parameter is built in. -/
def AllBuiltin (e : Expression) : Prop := ∀ p, .parameter p ∈ e → ∃ b : Builtin, p.input.frag = b.name

/-- The name of group `k` of parameter `id`: `__{id}_{k}`. -/
def groupName (id k : Nat) : List Char := ['_', '_'] ++ decimal id ++ ['_'] ++ decimal k

/-- The groups of an element, with their names. -/
def _root_.CE.SingleExpression.groups : SingleExpression → List (Option (List Char))
  | .parameter p => if p.input.frag = Builtin.string.name then [some (groupName p.id 0), some (groupName p.id 1)] else [none]
  | _ => []

end CE.Spec
