import Verif.Model.Parameters
import Verif.Spec.Custom

/-!
# Specification: custom regexes with inline flags

Common uses of the flags `i`, `s` and `m`.
-/

namespace CE.Spec
open Regex (Cap Matches Classes)

/-- The text, up to case. -/
def Casing (U : Classes) : List Char → List Char → Prop
  | [], x => x = []
  | c :: t, x => ∃ d y, x = d :: y ∧ (d = c ∨ U.fold c d) ∧ Casing U t y

/-- Regexes with flags: `(?i)` before a text, and cleared for a part of it; a negated class under `i`; `(?s).*`; and, under `m`, a text
between `^` and `$`, or between `\A` and `\z`. -/
inductive Flagged
  | casing (t : List Char)
  | partly (s t u : List Char)
  | without (t : List Char)
  | anything
  | line (t : List Char)
  | whole (t : List Char)

/-- How they are written. -/
def Flagged.value : Flagged → List Char
  | .casing t => ['(', '?', 'i', ')'] ++ t
  | .partly s t u => ['(', '?', 'i', ')'] ++ s ++ ['(', '?', '-', 'i', ':'] ++ t ++ [')'] ++ u
  | .without t => ['(', '?', 'i', ')', '[', '^'] ++ t ++ [']']
  | .anything => ['(', '?', 's', ')', '.', '*']
  | .line t => ['(', '?', 'm', ')', '^'] ++ t ++ ['$']
  | .whole t => ['(', '?', 'm', ')', '\\', 'A'] ++ t ++ ['\\', 'z']

/-- No character with a meaning in regexes. -/
def Unmarked (t : List Char) : Prop := ∀ c ∈ t, c ∉ ['\\', '.', '+', '*', '?', '(', ')', '|', '[', ']', '{', '}', '^', '$']

/-- The texts have no character with a meaning in regexes, or in classes. -/
def Flagged.Plain : Flagged → Prop
  | .casing t | .line t | .whole t => Spec.Unmarked t
  | .partly s t u => Spec.Unmarked s ∧ Spec.Unmarked t ∧ Spec.Unmarked u
  | .without t => t ≠ [] ∧ ∀ c ∈ t, c ∉ ['\\', '[', ']', '^', '-', '&', '~']
  | .anything => True

/-- What they match: the text up to case, in the part for which the flag is cleared as it is; a character which differs from those of
the text not only in case; everything; the text as a line of its own, or as a whole. -/
def Flagged.Takes (U : Classes) (pre x post : List Char) : Flagged → Prop
  | .casing t => Casing U t x
  | .partly s t u => ∃ y z, x = y ++ t ++ z ∧ Casing U s y ∧ Casing U u z
  | .without t => ∃ c, x = [c] ∧ ∀ d ∈ t, c ≠ d ∧ ¬ U.fold d c
  | .anything => True
  | .line t => x = t ∧ (pre = [] ∨ pre.getLast? = some '\n') ∧ (post = [] ∨ post.head? = some '\n')
  | .whole t => x = t ∧ pre = [] ∧ post = []

/-- What a parameter matches and captures, with given flagged regexes for the custom ones. -/
def flaggedMatch (U : Classes) (F : Parameter → Option Flagged) (p : Parameter) : Nat → Matches := fun g pre x post l =>
  match F p with
  | none => ∃ b : Builtin, p.input.frag = b.name ∧ b.Lang U x ∧ b.Captures g pre.length x l
  | some f => f.Takes U pre x post ∧ l = [⟨g, pre.length, x⟩]

/-- The number of its groups. -/
def flaggedGroups (F : Parameter → Option Flagged) (p : Parameter) : Nat :=
  match F p with
  | none => if p.input.frag = Builtin.string.name then 2 else 1
  | some _ => 1

/-- A parameter is built in or has one of these regexes. -/
def HasFlagged (pars : Provider) (F : Parameter → Option Flagged) (p : Parameter) : Prop :=
  match F p with
  | none => pars p.input = none ∧ ∃ b : Builtin, p.input.frag = b.name
  | some f => pars p.input = some f.value ∧ f.Plain

end CE.Spec
