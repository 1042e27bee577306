/-!
# `regex_syntax::hir::interval`: sets of characters as lists of ranges

External (crate `regex_syntax` 0.8). A canonical list is sorted and its ranges neither overlap nor touch; it is unique, so
how it is computed (the crate sorts, then merges) does not matter. Simplification: U+D7FF and U+E000 (before and after
the surrogates) count as neighbours, the crate does not merge ranges at this place.
-/

namespace CE.Ranges

/-- The number of characters. For `/repo/src/expand/parameters.rs:206-209`. -/
def total : Nat := 0x10F800

/-- The position of a character among all characters (surrogates are none). For `/repo/src/expand/parameters.rs:206-209`. -/
def ord (c : Char) : Nat := if c.toNat < 0xD800 then c.toNat else c.toNat - 0x800

/-- The character at a position. For `/repo/src/expand/parameters.rs:206-209`. -/
def chr (n : Nat) : Char := Char.ofNat (if n < 0xD800 then n else n + 0x800)

/-- Adds a range to a canonical list. For `/repo/src/expand/parameters.rs:206-209`. -/
def insert (a b : Char) : List (Char × Char) → List (Char × Char)
  | [] => [(a, b)]
  | (c, d) :: rs =>
    if ord b + 1 < ord c then (a, b) :: (c, d) :: rs
    else if ord d + 1 < ord a then (c, d) :: insert a b rs
    else insert (if a ≤ c then a else c) (if b ≤ d then d else b) rs

/-- `IntervalSet::canonicalize` (external). For `/repo/src/expand/parameters.rs:206-209`. -/
def canon : List (Char × Char) → List (Char × Char)
  | [] => []
  | (a, b) :: rs => insert a b (canon rs)

/-- The gaps of a canonical list from position `n` on. For `/repo/src/expand/parameters.rs:206-209`. -/
def gaps (n : Nat) : List (Char × Char) → List (Char × Char)
  | [] => if n < total then [(chr n, chr (total - 1))] else []
  | (a, b) :: rs => if n < ord a then (chr n, chr (ord a - 1)) :: gaps (ord b + 1) rs else gaps (ord b + 1) rs

/-- `IntervalSet::negate` (external), of a canonical list. For `/repo/src/expand/parameters.rs:206-209`. -/
def negate (rs : List (Char × Char)) : List (Char × Char) := gaps 0 rs

/-- `IntervalSet::intersect` (external), of canonical lists; the crate merges the lists instead.
For `/repo/src/expand/parameters.rs:206-209`. -/
def inter (rs qs : List (Char × Char)) : List (Char × Char) := negate (canon (negate rs ++ negate qs))

/-- `IntervalSet::difference` (external), of canonical lists. For `/repo/src/expand/parameters.rs:206-209`. -/
def diff (rs qs : List (Char × Char)) : List (Char × Char) := inter rs (negate qs)

/-- `IntervalSet::symmetric_difference` (external), of canonical lists. For `/repo/src/expand/parameters.rs:206-209`. -/
def symm (rs qs : List (Char × Char)) : List (Char × Char) := diff (canon (rs ++ qs)) (inter rs qs)

/-- Membership. For `/repo/src/expand/parameters.rs:206-209`. -/
def mem (rs : List (Char × Char)) (c : Char) : Bool := rs.any fun r => decide (r.1 ≤ c ∧ c ≤ r.2)

end CE.Ranges
