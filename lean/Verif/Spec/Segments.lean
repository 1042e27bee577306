import Verif.Spec.Pieces

/-!
# Specification: custom regexes with groups

A regex made of parts, some of which are in parentheses, as `(\d+)-(?P<month>\d+)`.
-/

namespace CE.Spec.Pat
open Regex (Cap Matches Classes)

/-- How a group begins: `(`, `(?P<name>`, `(?<name>`, `(?:`. -/
inductive Opening
  | number
  | named (p : Bool) (name : List Char)
  | noCapture

def Opening.write : Opening → List Char
  | .number => []
  | .named true name => ['?', 'P', '<'] ++ name ++ ['>']
  | .named false name => ['?', '<'] ++ name ++ ['>']
  | .noCapture => ['?', ':']

def Opening.captures : Opening → Bool
  | .noCapture => false
  | _ => true

def Opening.name : Opening → Option (List Char)
  | .named _ name => some name
  | _ => none

/-- A letter or underscore, then letters, digits, underscores, dots and brackets. -/
def LegalName : List Char → Prop
  | [] => False
  | c :: r => (c.isAlpha ∨ c = '_') ∧ ∀ d ∈ r, d.isAlpha ∨ d.isDigit ∨ d ∈ ['_', '.', '[', ']']

/-- Factors, or a pattern in parentheses. -/
inductive Segment
  | plain (fs : List Factor)
  | group (o : Opening) (p : Pattern)

def Segment.write : Segment → List Char
  | .plain fs => writeBranch fs
  | .group o p => ['('] ++ o.write ++ p.value ++ [')']

def Segment.captures : Segment → Bool
  | .plain _ => false
  | .group o _ => o.captures

def Segment.name : Segment → Option (List Char)
  | .plain _ => none
  | .group o _ => o.name

def Segment.Valid : Segment → Prop
  | .plain fs => ∀ f ∈ fs, f.Valid
  | .group o p => p.Valid ∧ ∀ n, o.name = some n → LegalName n

/-- What a segment at a position matches, and what it captures if its group is number `g`. -/
def Segment.Takes (U : Classes) (g pos : Nat) (x : List Char) (l : List Cap) : Segment → Prop
  | .plain fs => Sequence U false fs x ∧ l = []
  | .group o p => p.Takes U x ∧ l = if o.captures then [⟨g, pos, x⟩] else []

/-- One segment after the other; each group captures what it matches. -/
def Segments (U : Classes) : List Segment → (g pos : Nat) → List Char → List Cap → Prop
  | [], _, _, x, l => x = [] ∧ l = []
  | s :: ss, g, pos, x, l => ∃ y z k m, x = y ++ z ∧ l = k ++ m ∧ s.Takes U g pos y k ∧
      Segments U ss (if s.captures then g + 1 else g) (pos + y.length) z m

def writeSegments (ss : List Segment) : List Char := (ss.map Segment.write).flatten

/-- Every segment is valid; no name is used twice. -/
def ValidSegments (ss : List Segment) : Prop := (∀ s ∈ ss, s.Valid) ∧ (ss.filterMap Segment.name).Nodup

/-- The number of groups. -/
def groupCount (ss : List Segment) : Nat := (ss.filter Segment.captures).length

/-- What a parameter matches and captures, with given regexes for the custom ones: what their groups capture; without groups, all. -/
def segmentsMatch (U : Classes) (F : Parameter → Option (List Segment)) (p : Parameter) : Nat → Matches := fun g pre x _ l =>
  match F p with
  | none => ∃ b : Builtin, p.input.frag = b.name ∧ b.Lang U x ∧ b.Captures g pre.length x l
  | some ss => if groupCount ss = 0 then Segments U ss g pre.length x [] ∧ l = [⟨g, pre.length, x⟩] else Segments U ss g pre.length x l

/-- The number of its groups. -/
def segmentsGroups (F : Parameter → Option (List Segment)) (p : Parameter) : Nat :=
  match F p with
  | none => if p.input.frag = Builtin.string.name then 2 else 1
  | some ss => if groupCount ss = 0 then 1 else groupCount ss

/-- The names of its groups, if they have names. -/
def segmentsLabels (F : Parameter → Option (List Segment)) (p : Parameter) : List (Option (List Char)) :=
  match F p with
  | none => if p.input.frag = Builtin.string.name then [some (groupName p.id 0), some (groupName p.id 1)] else [none]
  | some ss => if groupCount ss = 0 then [none] else (List.range (groupCount ss)).map fun k => some (groupName p.id k)

/-- A parameter is built in or has one of these regexes. -/
def HasSegments (pars : Provider) (F : Parameter → Option (List Segment)) (p : Parameter) : Prop :=
  match F p with
  | none => pars p.input = none ∧ ∃ b : Builtin, p.input.frag = b.name
  | some ss => pars p.input = some (writeSegments ss) ∧ ValidSegments ss

/-- `(?=`, `(?!`, `(?<=`, `(?<!`: look-around. -/
def lookarounds : List (List Char) := [['(', '?', '='], ['(', '?', '!'], ['(', '?', '<', '='], ['(', '?', '<', '!']]

end CE.Spec.Pat
