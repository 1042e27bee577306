import Verif.Spec.Ast

/-! # Specification: reading off properties of a parsed AST

Functions on the AST types of the API (`/repo/src/ast.rs`), used to state properties. -/

namespace CE.Spec

/-! ## Writing an AST out -/

def printAlternative : Alternative → List Char
  | .text s => s.frag
  | .optional o => ['('] ++ o.input.frag ++ [')']

def printSingle : SingleExpression → List Char
  | .alternation a => ['/'].intercalate (a.map (fun b => b.flatMap printAlternative))
  | .optional o => ['('] ++ o.input.frag ++ [')']
  | .parameter p => ['{'] ++ p.input.frag ++ ['}']
  | .text s => s.frag
  | .whitespaces s => s.frag

/-- The AST written out from left to right. -/
def print (x : Expression) : List Char := x.flatMap printSingle

/-! ## Spans and ids -/

def altSpan : Alternative → Span
  | .text s => s
  | .optional o => o.input

def singleSpans : SingleExpression → List Span
  | .alternation a => a.flatten.map altSpan
  | .optional o => [o.input]
  | .parameter p => [p.input]
  | .text s => [s]
  | .whitespaces s => [s]

/-- All spans of an AST, from left to right. -/
def spans (x : Expression) : List Span := x.flatMap singleSpans

def singleIds : SingleExpression → List Nat
  | .parameter p => [p.id]
  | _ => []

/-- The ids of all parameters of an AST, from left to right. -/
def ids (x : Expression) : List Nat := x.flatMap singleIds

/-- `sp` is a correctly located slice of `src`: its text occurs at its byte offset, and its line is one more than the
number of newlines before it. -/
def LocatedIn (src : List Char) (sp : Span) : Prop :=
  ∃ pre post, src = pre ++ sp.frag ++ post ∧ sp.offset = blen pre ∧ sp.line = 1 + pre.count '\n'

/-! ## Forgetting locations -/

def erasePiece : Alternative → Piece
  | .text s => .text s.frag
  | .optional o => .opt o.input.frag

def eraseSingle : SingleExpression → Elem
  | .alternation a => .alt (a.map (·.map erasePiece))
  | .optional o => .opt o.input.frag
  | .parameter p => .param p.input.frag
  | .text s => .text s.frag
  | .whitespaces s => .ws s.frag

/-- The plain tree of an AST. -/
def erase (x : Expression) : List Elem := x.map eraseSingle

end CE.Spec
