import Verif.Spec.Lang

/-!
# Specification: which of several possible matches is returned

An expression may match a text in several ways. Each way is a sequence of choices, one per element: whether an optional
is there, which branch of an alternation is used (and which of its optionals are there), and which text is taken by a
parameter. The choices are ordered; the choice at an element is more important than those at later elements.
-/

namespace CE.Spec
open Regex (Classes Cap)

variable (U : Classes)

/-- The choice made at an element. -/
inductive Choice
  | plain
  | opt (taken : Bool)
  | branch (i : Nat) (taken : List Bool)
  | arg (x : List Char)
  deriving DecidableEq, Repr

/-- The branch matches `x` if those of its optionals are there that are marked. -/
def BranchFits : SingleAlternation → List Bool → List Char → Prop
  | [], [], x => x = []
  | .text t :: as, s, x => ∃ y, x = unescape t.frag ++ y ∧ BranchFits as s y
  | .optional o :: as, b :: s, x => ∃ y, x = (if b then unescape o.input.frag else []) ++ y ∧ BranchFits as s y
  | _, _, _ => False

/-- With choice `c`, the element matches `x` at position `p`, its groups, numbered from `g`, capturing `l`. -/
def _root_.CE.SingleExpression.Fits : SingleExpression → (g p : Nat) → Choice → List Char → List Cap → Prop
  | .text t, _, _, .plain, x, l => x = unescape t.frag ∧ l = []
  | .whitespaces t, _, _, .plain, x, l => x = t.frag ∧ l = []
  | .optional o, _, _, .opt b, x, l => x = (if b then unescape o.input.frag else []) ∧ l = []
  | .alternation a, _, _, .branch i s, x, l => (∃ b, a[i]? = some b ∧ BranchFits b s x) ∧ l = []
  | .parameter q, g, p, .arg y, x, l => x = y ∧ ∃ b : Builtin, q.input.frag = b.name ∧ b.Lang U x ∧ b.Captures g p x l
  | _, _, _, _, _, _ => False

/-- With choices `cs`, the expression matches `w`, capturing `l`. -/
inductive Fits : Expression → (g p : Nat) → (cs : List Choice) → (w : List Char) → List Cap → Prop
  | nil (g p) : Fits [] g p [] [] []
  | cons (e es g p c cs x y k l) : e.Fits U g p c x k → Fits es (g + e.groupCount) (p + x.length) cs y l →
      Fits (e :: es) g p (c :: cs) (x ++ y) (k ++ l)

/-! ## The order of choices -/

/-- Where they differ for the first time, the optional is there on the left. -/
inductive TakenBefore : List Bool → List Bool → Prop
  | here (s t) : TakenBefore (true :: s) (false :: t)
  | there (b s t) : TakenBefore s t → TakenBefore (b :: s) (b :: t)

/-- Floats: without a point before with a point, then the longer number, then the longer exponent. -/
def FloatBefore (x y : List Char) : Prop := ∃ s m e m' e', x = s ++ m ++ e ∧ y = s ++ m' ++ e' ∧ Sign s ∧
  Mantissa U m ∧ Mantissa U m' ∧ (e = [] ∨ Exponent U e) ∧ (e' = [] ∨ Exponent U e') ∧
  (('.' ∉ m ∧ '.' ∈ m') ∨ (('.' ∈ m ↔ '.' ∈ m') ∧ (m'.length < m.length ∨ m' = m ∧ e'.length < e.length)))

/-- Otherwise, the longer text first. -/
def Builtin.Before : Builtin → List Char → List Char → Prop
  | .float, x, y => FloatBefore U x y
  | _, x, y => y.length < x.length

/-- An optional is preferably there; earlier branches are preferred. -/
def _root_.CE.SingleExpression.Before : SingleExpression → Choice → Choice → Prop
  | .optional _, .opt a, .opt b => a = true ∧ b = false
  | .alternation _, .branch i s, .branch j t => i < j ∨ i = j ∧ TakenBefore s t
  | .parameter p, .arg x, .arg y => ∃ b : Builtin, p.input.frag = b.name ∧ b.Before U x y
  | _, _, _ => False

/-- At the first element where they differ, the left choice is before the right one, in the given order of choices. -/
inductive PreferredBy (B : SingleExpression → Choice → Choice → Prop) : Expression → List Choice → List Choice → Prop
  | here (e es c d cs ds) : B e c d → PreferredBy B (e :: es) (c :: cs) (d :: ds)
  | there (e es c cs ds) : PreferredBy B es cs ds → PreferredBy B (e :: es) (c :: cs) (c :: ds)

/-- At the first element where they differ, the left choice is preferred. -/
abbrev Preferred : Expression → List Choice → List Choice → Prop := PreferredBy (SingleExpression.Before U)

/-! ## The order of choices after simplification

`regex` moves what all branches of an alternation begin with out of the alternation. The optionals in that common beginning
are then decided before the branch is. -/

/-- A part of a branch: whether it is optional, and its text. -/
def _root_.CE.Alternative.part : Alternative → Bool × List Char
  | .text t => (false, unescape t.frag)
  | .optional o => (true, unescape o.input.frag)

/-- All branches begin with these parts. -/
def CommonBeginning (a : Alternation) (p : List (Bool × List Char)) : Prop := ∀ b ∈ a, p <+: b.map Alternative.part

/-- All branches begin with these parts, and with no more. -/
def LongestBeginning (a : Alternation) (p : List (Bool × List Char)) : Prop :=
  CommonBeginning a p ∧ ∀ q, CommonBeginning a q → q.length ≤ p.length

/-- The optionals which all branches begin with are decided first, then the branch, then its other optionals. -/
def BranchBefore (a : Alternation) (i : Nat) (s : List Bool) (j : Nat) (t : List Bool) : Prop :=
  ∃ p k, LongestBeginning a p ∧ k = (p.filter (·.1)).length ∧
    (TakenBefore (s.take k) (t.take k) ∨ s.take k = t.take k ∧ (i < j ∨ i = j ∧ TakenBefore s t))

/-- As `Before`, except for alternations. -/
def _root_.CE.SingleExpression.TriedBefore : SingleExpression → Choice → Choice → Prop
  | .alternation a, .branch i s, .branch j t => BranchBefore a i s j t
  | e, c, d => e.Before U c d

/-- None of the characters that separate the parts of a number is a digit. -/
def SaneDigits : Prop := ∀ c ∈ ['+', '-', '.', 'e', 'E', 'i', 'N'], ¬ U.digit c

end CE.Spec
