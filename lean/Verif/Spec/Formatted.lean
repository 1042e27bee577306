import Verif.Spec.Segments
import Verif.Spec.Verbose

/-!
# Regexes of any parts, with white space and comments between them: C81
-/

namespace CE.Spec
open Pat

/-- A part of a regex: nothing can be put inside of it, but white space and comments can be put between two of them. -/
inductive Part
  | piece (p : Piece)
  /-- a repetition operator -/
  | quant (q : Quant) (lazily : Bool)
  /-- the beginning of a group -/
  | opening (o : Opening)
  /-- the end of a group -/
  | closing
  | bar
  | first
  | last

def Part.write : Part → List Char
  | .piece p => p.write
  | .quant q lazily => q.write ++ if lazily then ['?'] else []
  | .opening o => '(' :: o.write
  | .closing => [')']
  | .bar => ['|']
  | .first => ['^']
  | .last => ['$']

/-- Neither white space nor a number sign, unless right after a backslash at the beginning. -/
def Compact (w : List Char) : Prop :=
  ∀ c ∈ (match w with
    | '\\' :: _ :: r => r
    | w => w), ¬ White c ∧ c ≠ '#'

def Part.Valid : Part → Prop
  | .piece p => p.Valid ∧ Compact p.write
  | .quant q _ => q.Valid
  | .opening o => ∀ n, o.name = some n → LegalName n
  | _ => True

def Part.isQuant : Part → Bool
  | .quant _ _ => true
  | _ => false

/-- It would be read differently before a question mark. -/
def Part.touchy : Part → Bool
  | .quant _ _ => true
  | .opening .number => true
  | _ => false

def Part.asks : Part → Bool
  | .quant .optional _ => true
  | _ => false

/-- `Formats ps b k`: with white space and comments ignored, `b` consists of the parts; `k` tells whether its last comment, if any, has
ended. -/
inductive Formats : List Part → List Char → Bool → Prop
  | nil : Formats [] [] true
  | white {c ps b k} : White c → Formats ps b k → Formats ps (c :: b) k
  | part {p ps b k} : p.Valid → (p.touchy = true → ∀ q ∈ ps.head?, q.asks = false) → Formats ps b k → Formats (p :: ps) (p.write ++ b) k
  | comment {w ps b k} : '\n' ∉ w → Formats ps b k → Formats ps ('#' :: w ++ '\n' :: b) k
  | last {w} : '\n' ∉ w → Formats [] ('#' :: w) false

/-- The parts one after the other. -/
def writeParts (ps : List Part) : List Char := (ps.map Part.write).flatten

/-- It does not begin with a repetition operator. -/
def Headed (ps : List Part) : Prop := ∀ p ∈ ps.head?, p.isQuant = false

end CE.Spec
