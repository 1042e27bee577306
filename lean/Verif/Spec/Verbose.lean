import Verif.Spec.Flags

/-!
# Regexes that ignore white space, and their comments: C78
-/

namespace CE.Spec

/-- White space: the Unicode property `White_Space`. -/
def White (c : Char) : Prop :=
  c.toNat ∈ [0x9, 0xA, 0xB, 0xC, 0xD, 0x20, 0x85, 0xA0, 0x1680, 0x2000, 0x2001, 0x2002, 0x2003, 0x2004, 0x2005, 0x2006, 0x2007, 0x2008,
    0x2009, 0x200A, 0x2028, 0x2029, 0x202F, 0x205F, 0x3000]

instance : DecidablePred White := fun _ => inferInstanceAs (Decidable (_ ∈ _))

/-- `Says b t k`: with white space and comments ignored, `b` says `t`; `k` tells whether its last comment, if any, has ended. -/
inductive Says : List Char → List Char → Bool → Prop
  | nil : Says [] [] true
  | white {c b t k} : White c → Says b t k → Says (c :: b) t k
  | char {c b t k} : ¬ White c → c ≠ '#' → c ∉ ['\\', '.', '+', '*', '?', '(', ')', '|', '[', ']', '{', '}', '^', '$'] →
      Says b t k → Says (c :: b) (c :: t) k
  | comment {w b t k} : '\n' ∉ w → Says b t k → Says ('#' :: w ++ '\n' :: b) t k
  | last {w} : '\n' ∉ w → Says ('#' :: w) [] false

/-- The flag `x` in front. -/
def verbose (b : List Char) : List Char := ['(', '?', 'x', ')'] ++ b

/-- An empty group in front. -/
def spaced (t : List Char) : List Char := ['(', '?', ':', ')'] ++ t

end CE.Spec
