import Verif.Model.Ast

/-!
# Specification: the concrete syntax of Cucumber Expressions

A small, self-contained description of what an expression *is*, independent of the parser:
plain syntax trees over strings, how a tree is written down (`render`), which trees are in canonical form, and how
a tree is decorated with source locations and parameter ids (`locate`).
-/

namespace CE.Spec

/-- The characters that may be escaped with a backslash. -/
def reserved : List Char := ['{', '}', '(', ')', '\\', '/', ' ']

/-- Characters that cannot occur unescaped in text (besides the backslash). -/
def textStops : List Char := [' ', '(', '{', '/']
/-- Characters that cannot occur unescaped in optional text (besides the backslash). -/
def optStops : List Char := ['(', ')', '{', '/']
/-- Characters that cannot occur unescaped in a parameter name (besides the backslash). -/
def nameStops : List Char := ['{', '}', '(', '/']

/-- Well-escaped text: a sequence of plain characters outside `stops` and of pairs backslash, reserved character. -/
inductive Escd (stops : List Char) : List Char → Prop
  | nil : Escd stops []
  | char (c : Char) (cs : List Char) : c ≠ '\\' → c ∉ stops → Escd stops cs → Escd stops (c :: cs)
  | esc (d : Char) (cs : List Char) : d ∈ reserved → Escd stops cs → Escd stops ('\\' :: d :: cs)

/-- A part of one branch of an alternation. -/
inductive Piece
  | text (t : List Char)
  | opt (t : List Char)
  deriving DecidableEq, Repr

/-- An element of an expression. -/
inductive Elem
  | alt (branches : List (List Piece))
  | opt (t : List Char)
  | param (name : List Char)
  | text (t : List Char)
  | ws (t : List Char)
  deriving DecidableEq, Repr

/-! ## Writing a tree down -/

def Piece.render : Piece → List Char
  | .text t => t
  | .opt t => '(' :: (t ++ [')'])

def renderPieces (b : List Piece) : List Char := (b.map Piece.render).flatten

/-- Branches joined by `/`. -/
def renderBranches : List (List Piece) → List Char
  | [] => []
  | [b] => renderPieces b
  | b :: bs => renderPieces b ++ '/' :: renderBranches bs

def Elem.render : Elem → List Char
  | .alt bs => renderBranches bs
  | .opt t => '(' :: (t ++ [')'])
  | .param n => '{' :: (n ++ ['}'])
  | .text t => t
  | .ws t => t

def render (es : List Elem) : List Char := (es.map Elem.render).flatten

/-! ## Canonical trees -/

/-- No two neighbours `a`, `b` of the list are in the relation `bad`. -/
def NoAdj {α : Type} (bad : α → α → Prop) : List α → Prop
  | a :: b :: r => ¬ bad a b ∧ NoAdj bad (b :: r)
  | _ => True

def Piece.Valid : Piece → Prop
  | .text t => t ≠ [] ∧ Escd textStops t
  | .opt t => t ≠ [] ∧ Escd optStops t

def Piece.isText : Piece → Bool
  | .text _ => true
  | .opt _ => false

/-- Two texts must not be neighbours. -/
def Piece.Bad (a b : Piece) : Prop := a.isText = true ∧ b.isText = true

/-- A sequence of valid pieces without adjacent texts. -/
def ValidPieces (b : List Piece) : Prop := (∀ p ∈ b, p.Valid) ∧ NoAdj Piece.Bad b

def Elem.Valid : Elem → Prop
  | .alt bs => 2 ≤ bs.length ∧ ∀ b ∈ bs, ValidPieces b ∧ b.any Piece.isText = true
  | .opt t => t ≠ [] ∧ Escd optStops t
  | .param n => Escd nameStops n
  | .text t => t ≠ [] ∧ Escd textStops t
  | .ws t => t ≠ [] ∧ ∀ c ∈ t, c = ' '

/-- Neighbours excluded by maximal munch. -/
def Elem.Bad : Elem → Elem → Prop
  | .text _, .text _ => True
  | .ws _, .ws _ => True
  | .text _, .alt _ => True
  | .opt _, .alt _ => True
  | .alt _, .text _ => True
  | .alt _, .opt _ => True
  | .alt _, .alt _ => True
  | _, _ => False

/-- Canonical trees: valid elements, no excluded neighbours. -/
def Canonical (es : List Elem) : Prop := (∀ e ∈ es, e.Valid) ∧ NoAdj Elem.Bad es

/-! ## Decorating with locations -/

/-- The span of text `f` that comes after `pre`, in an input starting where `s` starts. -/
def _root_.CE.Span.sub (s : Span) (pre f : List Char) : Span := ⟨s.offset + blen pre, s.line + nlCount pre, f⟩

def Piece.locate (s : Span) (pre : List Char) : Piece → Alternative
  | .text t => .text (s.sub pre t)
  | .opt t => .optional ⟨s.sub (pre ++ ['(']) t⟩

def locatePieces (s : Span) (pre : List Char) : List Piece → SingleAlternation
  | [] => []
  | p :: b => p.locate s pre :: locatePieces s (pre ++ p.render) b

def locateBranches (s : Span) (pre : List Char) : List (List Piece) → Alternation
  | [] => []
  | b :: bs => locatePieces s pre b :: locateBranches s (pre ++ renderPieces b ++ ['/']) bs

def Elem.locate (s : Span) (pre : List Char) (id : Nat) : Elem → SingleExpression
  | .alt bs => .alternation (locateBranches s pre bs)
  | .opt t => .optional ⟨s.sub (pre ++ ['(']) t⟩
  | .param n => .parameter ⟨s.sub (pre ++ ['{']) n, id⟩
  | .text t => .text (s.sub pre t)
  | .ws t => .whitespaces (s.sub pre t)

/-- Number of parameters of an element. -/
def Elem.params : Elem → Nat
  | .param _ => 1
  | _ => 0

/-- The located form of `es`, written after `pre`, with parameters numbered from `id`. -/
def locate (s : Span) (pre : List Char) (id : Nat) : List Elem → Expression
  | [] => []
  | e :: es => e.locate s pre id :: locate s (pre ++ e.render) (id + e.params) es

end CE.Spec
