import Verif.Model.Expand

/-!
# `/repo/src/expand/mod.rs:509-537`: the work of `OwnedChars`

`OwnedChars::next` starts `self.str.chars()` anew on each call and skips to the current position with `nth`. A string has
no index of its characters, so `nth` has to go past all characters before. They are counted here.
-/

namespace CE

/-- `Chars::nth` (external), with the number of characters it goes past, the returned one included.
For `/repo/src/expand/mod.rs:533`. -/
def nthPassed : List Char → Nat → Option Char × Nat
  | [], _ => (none, 0)
  | c :: _, 0 => (some c, 1)
  | _ :: cs, k + 1 => ((nthPassed cs k).1, (nthPassed cs k).2 + 1)

/-- `OwnedChars::next` (`/repo/src/expand/mod.rs:529-537`), with the number of characters gone past. -/
def OwnedChars.nextPassed (s : OwnedChars) : (Option Char × OwnedChars) × Nat :=
  match nthPassed s.str s.cur with
  | (none, n) => ((none, s), n)
  | (some c, n) => ((some c, ⟨s.str, s.cur + 1⟩), n)

/-- All calls of `OwnedChars::next` up to the first `None`, with the characters gone past altogether; `none` if `fuel`
calls do not suffice. For `/repo/src/expand/mod.rs:71,529-537`. -/
def OwnedChars.drainPassed : Nat → OwnedChars → Option (List Char × Nat)
  | 0, _ => none
  | fuel + 1, s =>
    match s.nextPassed with
    | ((none, _), n) => some ([], n)
    | ((some c, s'), n) => (drainPassed fuel s').map fun (cs, m) => (c :: cs, n + m)

end CE
