import Verif.Model.RegexSem

/-!
# Specification: the captures that are reported

A group inside a repetition captures several times; what is reported for it is its last capture.
-/

namespace CE.Spec
open Regex

/-- The last capture of group `g`. -/
def lastOf (g : Nat) (l : List Cap) : Option Cap := l.reverse.find? fun c => c.group == g

/-- The same captures are reported for all groups. -/
def Agree (l k : List Cap) : Prop := ∀ g, lastOf g l = lastOf g k

end CE.Spec
