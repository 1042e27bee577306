import Verif.Spec.Cuts
import Verif.Spec.Language

/-!
# Specification: the texts of an expression with custom parameters: C82, C83
-/

namespace CE.Spec
open Regex (Re Classes)

/-- It does not look at what is before or after its match: no anchors, no word boundaries. -/
def _root_.CE.Regex.Re.free : Re → Bool
  | .bol => false
  | .eol => false
  | .mark _ => false
  | .cap _ r => r.free
  | .cat a b => a.free && b.free
  | .alt a b => a.free && b.free
  | .rep r _ _ _ => r.free
  | _ => true

/-- A length that no match of the regex falls below, read off its structure. -/
def _root_.CE.Regex.Re.least : Re → Nat
  | .lit _ => 1
  | .dot => 1
  | .cls _ => 1
  | .cap _ r => r.least
  | .cat a b => a.least + b.least
  | .alt a b => min a.least b.least
  | .rep r m _ _ => m * r.least
  | _ => 0

variable (T : Tables) (pars : Provider)

/-- The parameter is built in, or its custom regex does not look around. -/
def FreeParam (p : Parameter) : Prop := ∀ v r, pars p.input = some v → Regex.parse v = .ok r → r.free = true

/-- The texts a parameter matches somewhere. -/
def ParamText (p : Parameter) (x : List Char) : Prop := ∃ pre post, TakesParam T pars p pre x post

/-- The texts of an element. -/
def _root_.CE.SingleExpression.Text : SingleExpression → List Char → Prop
  | .text t, x => x = unescape t.frag
  | .whitespaces t, x => x = t.frag
  | .optional o, x => x = [] ∨ x = unescape o.input.frag
  | .alternation a, x => ∃ b ∈ a, BranchLang b x
  | .parameter p, x => ParamText T pars p x

/-- One text of each element, one after the other. -/
def _root_.CE.Expression.Text : Expression → List Char → Prop
  | [], w => w = []
  | e :: es, w => ∃ x y, w = x ++ y ∧ e.Text T pars x ∧ Expression.Text es y

/-- `m` is the length of the shortest text. -/
def Shortest (L : List Char → Prop) (m : Nat) : Prop := (∀ x, L x → m ≤ x.length) ∧ ∃ x, L x ∧ x.length = m

/-- The length of the shortest text of an element, given that of the parameters. -/
def _root_.CE.SingleExpression.shortestWith (m : Parameter → Nat) : SingleExpression → Nat
  | .parameter p => m p
  | e => e.shortest

def _root_.CE.Expression.shortestWith (m : Parameter → Nat) (e : Expression) : Nat := (e.map (SingleExpression.shortestWith m)).sum

/-- The text that the elements stand for, if all of them are texts or white space. -/
def literalText : Expression → Option (List Char)
  | [] => some []
  | .text t :: es => (literalText es).map (unescape t.frag ++ ·)
  | .whitespaces t :: es => (literalText es).map (t.frag ++ ·)
  | _ => none

/-- As many elements, and each has a text in common with the corresponding one. -/
inductive Shared (pars' : Provider) : Expression → Expression → Prop
  | nil : Shared pars' [] []
  | cons (e e' es es' t) : e.Text T pars t → e'.Text T pars' t → Shared pars' es es' → Shared pars' (e :: es) (e' :: es')

/-- Numbers and strings have no text in common. -/
def Apart : Builtin → Builtin → Prop
  | .string, .int | .string, .float | .int, .string | .float, .string => True
  | _, _ => False

end CE.Spec
