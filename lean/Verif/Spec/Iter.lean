import Verif.Model.Expand

/-! # Specification: what an iterator yields, and removing escapes -/

namespace CE.Spec

/-- Calling `next` from state `s` yields exactly `xs` before the first `None`. -/
inductive Yields {σ α : Type} (next : Next σ α) : σ → List α → Prop
  | nil (s s') : next s = some (none, s') → Yields next s []
  | cons (s s' a xs) : next s = some (some a, s') → Yields next s' xs → Yields next s (a :: xs)

/-- The result of call number `k` (from 0) of `next`. -/
def nthCall {σ α : Type} (next : Next σ α) : Nat → σ → Option (Option α)
  | 0, s => (next s).map (·.1)
  | k + 1, s => (next s).bind fun r => nthCall next k r.2

/-- The text without its escaping backslashes (a lonely last backslash disappears as well). -/
def unescape : List Char → List Char
  | [] => []
  | ['\\'] => []
  | '\\' :: d :: r => d :: unescape r
  | c :: r => c :: unescape r

/-- A literal character in a regular expression: with a backslash exactly if it is one of ``^$[]()\{}.|?*+``. -/
def quote (c : Char) : List Char := if c ∈ "^$[]()\\{}.|?*+".toList then ['\\', c] else [c]

end CE.Spec
