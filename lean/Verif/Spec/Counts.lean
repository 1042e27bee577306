import Verif.Spec.Verbose

/-! # Specification: counted repetitions -/

namespace CE.Spec

/-- White space only. -/
def Whites (b : List Char) : Prop := ∀ c ∈ b, White c

instance : DecidablePred Whites := fun b => inferInstanceAs (Decidable (∀ c ∈ b, White c))

/-- Decimal digits, at least one. -/
def Numerals (d : List Char) : Prop := d ≠ [] ∧ ∀ c ∈ d, '0' ≤ c ∧ c ≤ '9'

/-- The number that digits stand for. -/
def numberOf (d : List Char) : Nat := d.foldl (fun n c => 10 * n + (c.toNat - 48)) 0

/-- `CountText s t`: between braces, `s` is a count, and `t` is the same count without spaces. -/
inductive CountText : List Char → List Char → Prop
  | exactly (a d b : List Char) : Whites a → Numerals d → Whites b → CountText (a ++ d ++ b) d
  | atLeast (a d b : List Char) : Whites a → Numerals d → Whites b → CountText (a ++ d ++ b ++ [',']) (d ++ [','])
  | between (a d b a' d' b' : List Char) : Whites a → Numerals d → Whites b → Whites a' → Numerals d' → Whites b' →
      numberOf d ≤ numberOf d' → CountText (a ++ d ++ b ++ ',' :: (a' ++ d' ++ b')) (d ++ ',' :: d')

/-- A count and a closing brace are at the beginning. -/
def BeginsCount (u : List Char) : Prop := ∃ s t w, CountText s t ∧ u = s ++ '}' :: w

end CE.Spec
